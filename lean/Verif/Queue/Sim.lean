import Verif.Queue.Inv

/-!
# Queue: every step preserves the invariant and is a move of the canonical atomic queue (proof)
-/

namespace Verif.Queue
open Lin

variable {α : Type}

structure GInv (cfg : Cfg) (C : Conf α) (g : G) (c : CState (spec α cfg.fixed)) : Prop where
  si : SI cfg C.s g c.st
  loc : ∀ t, Local cfg C.s g.F g.L (g.held t) (c.status t) (C.pc t)

/-- Result of one step. -/
def Next (cfg : Cfg) (C : Conf α) (g : G) (c : CState (spec α cfg.fixed)) (lk : Bool) (t : Nat) (s' : St α)
    (p' : PC α) (e : Option (Event (Op α) (Ret α))) : Prop :=
  ∃ g' c', GInv cfg ⟨s', upd C.pc t p'⟩ g' c' ∧ CMove (spec α cfg.fixed) c e c' ∧
    Guar lk t C.s g s' g' ∧ ∀ t', t' ≠ t → c'.status t' = c.status t'

section
variable {cfg : Cfg} {C : Conf α} {g : G} {c : CState (spec α cfg.fixed)} {t : Nat} {lk : Bool}

theorem GInv.close (hi : GInv cfg C g c) {s' g' p' e} {c' : CState (spec α cfg.fixed)}
    (hs : SI cfg s' g' c'.st) (hg : Guar lk t C.s g s' g') (hc : ∀ t', t' ≠ t → c'.status t' = c.status t')
    (hl : Local cfg s' g'.F g'.L (g'.held t) (c'.status t) p') (hm : CMove (spec α cfg.fixed) c e c') :
    Next cfg C g c lk t s' p' e := by
  refine ⟨g', c', ⟨hs, fun t' => ?_⟩, hm, hg, hc⟩
  by_cases h : t' = t
  · subst h; simpa using hl
  · have h1 := (hi.loc t').stable (hg.rely hi.si hs h)
    simp only [upd_ne _ _ _ h, hg.others t' h, hc t' h]
    exact h1

theorem GInv.stay (hi : GInv cfg C g c) {s' g' p'} (hs : SI cfg s' g' c.st) (hg : Guar lk t C.s g s' g')
    (hl : Local cfg s' g'.F g'.L (g'.held t) (c.status t) p') : Next cfg C g c lk t s' p' none :=
  hi.close (c' := c) hs hg (fun _ _ => rfl) hl (.stay c)

/-- A purely local step. -/
theorem GInv.quiet (hi : GInv cfg C g c) {p'}
    (hl : Local cfg C.s g.F g.L (g.held t) (c.status t) p') : Next cfg C g c lk t C.s p' none :=
  hi.stay hi.si (.refl _ _ _ _) hl

theorem GInv.linear (hi : GInv cfg C g c) {s' g' p' o r} {σ' : List α} (hp : isPend (c.status t) o)
    (hst : specStep cfg.fixed c.st o r σ') (hs : SI cfg s' g' σ') (hg : Guar lk t C.s g s' g')
    (hl : Local cfg s' g'.F g'.L (g'.held t) (.done o r) p') : Next cfg C g c lk t s' p' none := by
  obtain ⟨P, hP⟩ := hp
  refine hi.close (c' := ⟨σ', upd c.status t (.done o r)⟩) hs hg (fun t' h => by simp [upd_ne _ _ _ h])
    (by simpa using hl) (.lin (S := spec α cfg.fixed) hP hst)

theorem G.held_lose (g : G) : (g.lose t).held t = [] := by simp [G.lose]

end

theorem cfg_M_or {cfg : Cfg} {a b : Nat} (hle : b ≤ a) (hf : cfg.M = 0 ∨ a < b + cfg.M)
    (he : a % cfg.M = b % cfg.M) : a = b := ver_eq_of_fresh hle hf he

theorem GInv.step {cfg : Cfg} {C : Conf α} {g : G} {c : CState (spec α cfg.fixed)} (hi : GInv cfg C g c)
    {t : Nat} {ch : QChoice α} {s' p' e} (hs : tstep cfg t C.s (C.pc t) ch = some (s', p', e))
    (hf : fresh cfg C.s (C.pc t)) :
    Next cfg C g c (leaky (C.pc t) ch) t s' p' e := by
  have hl := hi.loc t
  have hsi := hi.si
  generalize C.pc t = p at hs hl hf ⊢
  cases p with
  | idle =>
    obtain ⟨hl1, hl2⟩ := hl
    rcases ch with ch | v | x
    · cases ch with
      | call o =>
        simp only [tstep, Option.map_eq_some_iff, Prod.mk.injEq] at hs
        obtain ⟨p, hp, rfl, rfl, rfl⟩ := hs
        refine hi.close (c' := ⟨c.st, upd c.status t (.pend o fun _ => False)⟩) hsi (.refl _ _ _ _)
          (fun t' h => by simp [upd_ne _ _ _ h]) ?_ (.inv hl2)
        simp only [upd_self, hl1]
        cases o with
        | push b v => simp [start] at hp; subst hp; exact ⟨rfl, ⟨_, rfl⟩, trivial⟩
        | pop => simp [start] at hp; subst hp; exact ⟨rfl, _, rfl⟩
        | empty => simp [start] at hp; subst hp; exact ⟨rfl, _, rfl⟩
        | reserve k => simp [start] at hp; obtain ⟨_, rfl⟩ := hp; exact ⟨rfl, _, _, rfl⟩
      | _ => simp [tstep] at hs
    · simp [tstep] at hs
    · simp [tstep] at hs
  | alloc b v a =>
    obtain ⟨hl1, hl2, hal⟩ := hl
    rcases ch with ch | w | x
    · simp only [tstep] at hs
      split at hs
      · simp at hs
      · rename_i h a' hst
        obtain ⟨rfl, hal'⟩ := aStep_inv (t := t) hsi.heap hal hf hst
        simp at hs; obtain ⟨rfl, rfl, rfl⟩ := hs
        exact hi.quiet ⟨hl1, hl2, hal'⟩
      · rename_i h n hst
        obtain ⟨F', hstep, hown, hdn, hfr⟩ := aStep_inv (t := t) hsi.heap hal hf hst
        obtain ⟨ht1, ht2⟩ := aStep_tags hsi.ntag hst
        simp at hs; obtain ⟨rfl, rfl, rfl⟩ := hs
        obtain ⟨h1, h2⟩ := hsi.fl hstep ht1 (fun m hm => by rw [ht2 m hm]; exact Nat.le_refl _)
        refine hi.stay h1 h2 ?_
        simp only [upd_self]
        exact ⟨by rw [hl1], hl2, hdn⟩
      · rename_i h hst
        obtain ⟨rfl, hfb⟩ := aStep_inv (t := t) hsi.heap hal hf hst
        simp at hs; obtain ⟨rfl, rfl, rfl⟩ := hs
        exact hi.linear hl2 (r := .pushed false) (σ' := c.st) (Or.inr ⟨rfl, hfb, rfl⟩) hsi (.refl _ _ _ _)
          ⟨hl1, .inl ⟨_, rfl⟩⟩
      · rename_i h hst
        obtain ⟨rfl, hfb⟩ := aStep_inv (t := t) hsi.heap hal hf hst
        simp at hs; obtain ⟨rfl, rfl, rfl⟩ := hs
        exact hi.linear hl2 (r := .threw) (σ' := c.st) rfl hsi (.refl _ _ _ _) ⟨hl1, .inl ⟨_, rfl⟩⟩
    · simp [tstep] at hs
    · simp [tstep] at hs
  | constr b v n =>
    obtain ⟨hl1, hl2, hdn⟩ := hl
    rcases ch with ch | w | x
    · cases ch with
      | go =>
        simp only [tstep, hdn, Option.isSome_none, Bool.false_eq_true, if_false, Option.some.injEq,
          Prod.mk.injEq] at hs
        obtain ⟨rfl, rfl, rfl⟩ := hs
        obtain ⟨h1, h2⟩ := hsi.setData (t := t) (n := n) (by simp [hl1]) (some v)
        exact hi.stay h1 h2 ⟨hl1, hl2, by simp [Heap.setData]⟩
      | throw =>
        simp only [tstep, Option.some.injEq, Prod.mk.injEq] at hs
        obtain ⟨rfl, rfl, rfl⟩ := hs
        obtain ⟨h1, h2⟩ := hsi.lose (t := t)
        exact hi.linear hl2 (r := .threw) (σ' := c.st) rfl h1 h2 ⟨g.held_lose, .inl ⟨_, rfl⟩⟩
      | _ => simp [tstep] at hs
    · simp [tstep] at hs
    · simp [tstep] at hs
  | nload b v n =>
    obtain ⟨hl1, hl2, hdn⟩ := hl
    rcases ch with ch | w | x
    · cases ch with
      | go =>
        simp only [tstep, Option.some.injEq, Prod.mk.injEq] at hs
        obtain ⟨rfl, rfl, rfl⟩ := hs
        exact hi.quiet ⟨hl1, hl2, hdn, rfl⟩
      | _ => simp [tstep] at hs
    · simp [tstep] at hs
    · simp [tstep] at hs
  | nstore b v n o =>
    obtain ⟨hl1, hl2, hdn, ho⟩ := hl
    rcases ch with ch | w | x
    · cases ch with
      | go =>
        simp only [tstep, Option.some.injEq, Prod.mk.injEq] at hs
        obtain ⟨rfl, rfl, rfl⟩ := hs
        obtain ⟨h1, h2⟩ := hsi.nstore (t := t) (n := n) (by simp [hl1])
        subst ho
        exact hi.stay h1 h2 ⟨b, v, hl1, hl2, hdn, by simp⟩
      | _ => simp [tstep] at hs
    · simp [tstep] at hs
    · simp [tstep] at hs
  | pTail n =>
    rcases ch with ch | w | x
    · cases ch with
      | go =>
        simp only [tstep, Option.some.injEq, Prod.mk.injEq] at hs
        obtain ⟨rfl, rfl, rfl⟩ := hs
        exact hi.quiet ⟨hl, hsi.tailSnap⟩
      | _ => simp [tstep] at hs
    · simp [tstep] at hs
    · simp [tstep] at hs
  | pNext n T =>
    obtain ⟨hl1, x, hx⟩ := hl
    simp only [tstep, hx.2.2.1] at hs
    split at hs
    · simp only [Option.some.injEq, Prod.mk.injEq] at hs
      obtain ⟨rfl, rfl, rfl⟩ := hs
      exact hi.quiet ⟨hl1, x, hx, Nat.le_refl _, fun _ => ⟨hsi.ntag x, fun _ => rfl, fun _ h => h⟩⟩
    · split at hs
      · simp at hs
      · rename_i hne
        simp only [Option.some.injEq, Prod.mk.injEq] at hs
        obtain ⟨rfl, rfl, rfl⟩ := hs
        exact hi.quiet ⟨hl1, x, hx, Nat.le_refl _, fun h => absurd h.symm hne⟩
    · simp at hs
  | pCheck n T N =>
    obtain ⟨hl1, x, hx, hN, hN2⟩ := hl
    rcases ch with ch | w | x
    · cases ch with
      | go =>
        simp only [tstep] at hs
        split at hs
        · rename_i heq
          simp only [Option.some.injEq, Prod.mk.injEq] at hs
          obtain ⟨rfl, rfl, rfl⟩ := hs
          have hver : C.s.tailVer = T.ver :=
            ver_eq_of_fresh hx.1 hf (by rw [← hsi.ttag, ← hx.2.1, heq])
          obtain ⟨h1, h2, h3⟩ := hN2 hver.symm
          refine hi.quiet ?_
          cases hNp : N.v.ptr with
          | none =>
            simp only [pBranch, hNp]
            have hNv : N.v = ⟨none, N.ver % cfg.M⟩ := by rw [← h1, ← hNp]
            refine ⟨hl1, x, hx, hN, hNv, fun hv => ⟨?_, hver⟩⟩
            obtain ⟨A, z, h4, h5⟩ := hsi.tl
            rw [heq, hx.2.2.1] at h4; cases h4
            rcases h5 with h5 | ⟨y, h5⟩
            · simp [h5]
            · exfalso
              have hc := hsi.chain
              rw [h5] at hc
              have := Chain.next_mem hc
              rw [h2 hv, hNp] at this; simp at this
          | some y =>
            simp only [pBranch, hNp]
            exact ⟨⟨x, hx, fun _ => h3 y hNp⟩, hl1⟩
        · simp only [Option.some.injEq, Prod.mk.injEq] at hs
          obtain ⟨rfl, rfl, rfl⟩ := hs
          exact hi.quiet hl1
      | _ => simp [tstep] at hs
    · simp [tstep] at hs
    · simp [tstep] at hs
  | pCas n T N =>
    obtain ⟨hl1, x, hx, hN, hNv, hlast⟩ := hl
    rcases ch with ch | w | x
    · cases ch with
      | go =>
        simp only [tstep, hx.2.2.1] at hs
        split at hs
        · rename_i heq
          simp only [Option.some.injEq, Prod.mk.injEq] at hs
          obtain ⟨rfl, rfl, rfl⟩ := hs
          have hver : C.s.heap.nver x = N.ver := by
            refine ver_eq_of_fresh hN (hf x hx.2.2.1) ?_
            have h1 := hsi.ntag x
            rw [heq, hNv] at h1
            exact h1.symm
          obtain ⟨h1, h2⟩ := hlast hver
          have ht : C.s.tail.ptr = some x := by rw [hx.2.2.2.2 h2.symm, hx.2.2.1]
          obtain ⟨b, v, hl2, hl3, hl4, hl5⟩ := hl1
          obtain ⟨h3, h4, h5⟩ := hsi.link hl2 hl4 hl5 h1 ht
          rw [heq] at h3 h4 h5
          refine hi.linear hl3 (r := .pushed true) (Or.inl ⟨rfl, rfl⟩) h3 h4 ?_
          simp only [upd_self]
          refine ⟨⟨x, ⟨hx.1, hx.2.1, hx.2.2.1, hx.2.2.2.1, hx.2.2.2.2⟩, fun _ => by simp⟩, rfl, _, rfl⟩
        · simp only [Option.some.injEq, Prod.mk.injEq] at hs
          obtain ⟨rfl, rfl, rfl⟩ := hs
          exact hi.quiet hl1
      | spur =>
        simp only [tstep, Option.some.injEq, Prod.mk.injEq] at hs
        obtain ⟨rfl, rfl, rfl⟩ := hs
        exact hi.quiet hl1
      | _ => simp [tstep] at hs
    · simp [tstep] at hs
    · simp [tstep] at hs
  | swing k T y =>
    obtain ⟨⟨x, hx, hy⟩, hk⟩ := hl
    rcases ch with ch | w | x
    · cases ch with
      | go =>
        simp only [tstep, Option.some.injEq, Prod.mk.injEq] at hs
        obtain ⟨rfl, rfl, rfl⟩ := hs
        have hloc : ∀ s' : St α, s'.heap = C.s.heap → s'.head = C.s.head →
            Local cfg s' g.F g.L (g.held t) (c.status t) (onSwung k) := by
          intro s' h1 h2
          cases k with
          | retryPush n =>
            obtain ⟨b, v, hl2, hl3, hl4, hl5⟩ := hk
            exact ⟨b, v, hl2, hl3, by rw [h1]; exact hl4, by rw [h1]; exact hl5⟩
          | donePush => exact ⟨hk.1, .inl hk.2⟩
          | retryPop => exact hk
        simp only [St.swingTail]
        split
        · rename_i heq
          have hver : C.s.tailVer = T.ver :=
            ver_eq_of_fresh hx.1 hf (by rw [← hsi.ttag, ← hx.2.1, heq])
          have ht : C.s.tail.ptr = some x := by rw [heq, hx.2.2.1]
          obtain ⟨h3, h4, _⟩ := hsi.swing (t := t) ht (hy hver.symm)
          rw [heq] at h3 h4
          exact hi.stay h3 h4 (hloc _ rfl rfl)
        · exact hi.quiet (hloc _ rfl rfl)
      | _ => simp [tstep] at hs
    · simp [tstep] at hs
    · simp [tstep] at hs
  | cHead =>
    obtain ⟨hl1, hl2⟩ := hl
    rcases ch with ch | w | x
    · cases ch with
      | go =>
        simp only [tstep, Option.some.injEq, Prod.mk.injEq] at hs
        obtain ⟨rfl, rfl, rfl⟩ := hs
        exact hi.quiet ⟨hl1, hl2, hsi.headSnap⟩
      | _ => simp [tstep] at hs
    · simp [tstep] at hs
    · simp [tstep] at hs
  | cTail H =>
    obtain ⟨hl1, hl2, x, hx⟩ := hl
    rcases ch with ch | w | x
    · cases ch with
      | go =>
        simp only [tstep, Option.some.injEq, Prod.mk.injEq] at hs
        obtain ⟨rfl, rfl, rfl⟩ := hs
        obtain ⟨z, hz⟩ := hsi.tailSnap
        refine hi.quiet ⟨hl1, hl2, x, z, hx, hz, fun _ hne h => hne ?_⟩
        have := hz.2.2.1
        simp only [St.tailSnap] at this
        rw [this] at h; simpa using h
      | _ => simp [tstep] at hs
    · simp [tstep] at hs
    · simp [tstep] at hs
  | cNext H T =>
    obtain ⟨hl1, ⟨P, hP⟩, x, z, hx, hz, hne⟩ := hl
    simp only [tstep, hx.2.2.1] at hs
    split at hs
    · simp only [Option.some.injEq, Prod.mk.injEq] at hs
      obtain ⟨rfl, rfl, rfl⟩ := hs
      by_cases hemp : H.ver = C.s.headVer ∧ (C.s.heap.next x).ptr = none
      · have hh : C.s.head.ptr = some x := by rw [hx.2.2.2.2 hemp.1, hx.2.2.1]
        have he := (hsi.empty_iff hh).1 hemp.2
        refine hi.close (c' := ⟨c.st, upd c.status t (.pend .pop fun r' => P r' ∨ r' = .popped none)⟩) hsi
          (.refl _ _ _ _) (fun t' h => by simp [upd_ne _ _ _ h]) ?_
          (.obs (S := spec α cfg.fixed) hP ⟨he, he⟩)
        simp only [upd_self]
        exact ⟨hl1, _, rfl, x, z, hx, hz, hne, fun _ _ => .inr rfl, fun _ y hy => hy, fun _ _ y hy => hy⟩
      · exact hi.quiet ⟨hl1, P, hP, x, z, hx, hz, hne, fun h1 h2 => absurd ⟨h1, h2⟩ hemp, fun _ y hy => hy,
          fun _ _ y hy => hy⟩
    · split at hs
      · simp at hs
      · rename_i hcond
        simp only [Option.some.injEq, Prod.mk.injEq] at hs
        obtain ⟨rfl, rfl, rfl⟩ := hs
        refine hi.quiet ⟨hl1, P, hP, x, z, hx, hz, hne, fun h1 => absurd (Or.inl h1.symm) hcond,
          fun h1 => absurd (Or.inl h1.symm) hcond, fun h1 h2 => ?_⟩
        exact absurd (Or.inr (by rw [hz.2.2.2.2 h1, hz.2.2.1, h2])) hcond
    · simp at hs
  | cCheck H T N =>
    obtain ⟨hl1, P, hP, x, z, hx, hz, hne, hN1, hN2, hN3⟩ := hl
    rcases ch with ch | w | x
    · cases ch with
      | go =>
        simp only [tstep] at hs
        split at hs
        · rename_i heq
          simp only [Option.some.injEq, Prod.mk.injEq] at hs
          obtain ⟨rfl, rfl, rfl⟩ := hs
          have hver : C.s.headVer = H.ver :=
            ver_eq_of_fresh hx.1 hf (by rw [← hsi.htag, ← hx.2.1, heq])
          refine hi.quiet ?_
          simp only [cBranch, hx.2.2.1, hz.2.2.1, Option.some.injEq]
          by_cases hxz : x = z
          · simp only [hxz, if_true]
            cases hNp : N.v.ptr with
            | none => exact ⟨hl1, .inr ⟨_, P, hP, hN1 hver.symm hNp⟩⟩
            | some y =>
              refine ⟨⟨z, hz, fun h => ?_⟩, hl1, P, hP⟩
              have := hN3 h hxz.symm y hNp
              rwa [hxz] at this
          · simp only [hxz, if_false]
            cases hNp : N.v.ptr with
            | none => exact ⟨hl1, P, hP⟩
            | some y =>
              refine ⟨hl1, ⟨P, hP⟩, ?_, x, hx, fun h => ⟨hne h (Ne.symm hxz), hN2 h y hNp⟩⟩
              obtain ⟨a, L', hL, ha, hc⟩ := hsi.head_cons
              rw [heq, hx.2.2.1] at ha; cases ha
              have hy := hc.mem_some (hN2 hver.symm y hNp)
              have hy' : g.own y = .str := (hsi.mem y).2 (by rw [hL]; simp [hy])
              exact hsi.heap.lt (by simp [hy'])
        · simp only [Option.some.injEq, Prod.mk.injEq] at hs
          obtain ⟨rfl, rfl, rfl⟩ := hs
          exact hi.quiet ⟨hl1, P, hP⟩
      | _ => simp [tstep] at hs
    · simp [tstep] at hs
    · simp [tstep] at hs
  | cData H y =>
    obtain ⟨hl1, hl2, _, x, hx, hy⟩ := hl
    have hdata : ∀ h : H.ver = C.s.headVer, C.s.heap.data y ≠ none := by
      intro h hd
      have hh : C.s.head.ptr = some x := by rw [hx.2.2.2.2 h, hx.2.2.1]
      obtain ⟨a, L', hL, ha, hc⟩ := hsi.head_cons
      rw [hh] at ha; cases ha
      obtain ⟨L'', rfl, _⟩ := hc.head (hy h).2
      have := hsi.data
      rw [hL] at this
      have h2 : (none : Option α) ∈ (c.st.map some) := by
        rw [← this]; simp [hd]
      obtain ⟨_, _, h3⟩ := List.mem_map.1 h2
      exact absurd h3 (by simp)
    rcases ch with ch | w | x
    · cases ch with
      | go =>
        simp only [tstep] at hs
        split at hs
        · rename_i v hv
          simp only [Option.some.injEq, Prod.mk.injEq] at hs
          obtain ⟨rfl, rfl, rfl⟩ := hs
          exact hi.quiet ⟨hl1, hl2, x, hx, fun h => ⟨(hy h).1, (hy h).2, hv⟩⟩
        · rename_i hv
          split at hs
          · rename_i h; exact absurd hv (hdata h.symm)
          · simp at hs
      | throw =>
        simp only [tstep, Option.some.injEq, Prod.mk.injEq] at hs
        obtain ⟨rfl, rfl, rfl⟩ := hs
        exact hi.linear hl2 (r := .threw) (σ' := c.st) rfl hsi (.refl _ _ _ _) ⟨hl1, .inl ⟨_, rfl⟩⟩
      | _ => simp [tstep] at hs
    · simp only [tstep] at hs
      split at hs
      · simp at hs
      · rename_i hv
        simp only [Option.some.injEq, Prod.mk.injEq] at hs
        obtain ⟨rfl, rfl, rfl⟩ := hs
        exact hi.quiet ⟨hl1, hl2, x, hx, fun h => absurd h.symm hv⟩
    · simp [tstep] at hs
  | cCas H y v =>
    obtain ⟨hl1, hl2, x, hx, hy⟩ := hl
    rcases ch with ch | w | x
    · cases ch with
      | go =>
        simp only [tstep, hx.2.2.1] at hs
        split at hs
        · rename_i heq
          simp only [Option.some.injEq, Prod.mk.injEq] at hs
          obtain ⟨rfl, rfl, rfl⟩ := hs
          have hver : C.s.headVer = H.ver :=
            ver_eq_of_fresh hx.1 hf (by rw [← hsi.htag, ← hx.2.1, heq])
          obtain ⟨h1, h2, h3⟩ := hy hver.symm
          obtain ⟨σ', L', hσ, hL, h4, h5⟩ := hsi.pop hl1 (by rw [heq, hx.2.2.1]) h1 h2 h3
          rw [heq] at h4 h5
          refine hi.linear hl2 (r := .popped (some v)) (σ' := σ') hσ h4 h5 ?_
          simp only [upd_self]
          exact ⟨rfl, _, rfl⟩
        · simp only [Option.some.injEq, Prod.mk.injEq] at hs
          obtain ⟨rfl, rfl, rfl⟩ := hs
          exact hi.quiet ⟨hl1, hl2⟩
      | spur =>
        simp only [tstep, Option.some.injEq, Prod.mk.injEq] at hs
        obtain ⟨rfl, rfl, rfl⟩ := hs
        exact hi.quiet ⟨hl1, hl2⟩
      | _ => simp [tstep] at hs
    · simp [tstep] at hs
    · simp [tstep] at hs
  | cDestroy n v =>
    obtain ⟨hl1, hl2⟩ := hl
    rcases ch with ch | w | x
    · cases ch with
      | go =>
        simp only [tstep, Option.some.injEq, Prod.mk.injEq] at hs
        obtain ⟨rfl, rfl, rfl⟩ := hs
        obtain ⟨h1, h2⟩ := hsi.setData (t := t) (n := n) (by simp [hl1]) none
        exact hi.stay h1 h2 ⟨hl1, by simp [Heap.setData], trivial, hl2⟩
      | _ => simp [tstep] at hs
    · simp [tstep] at hs
    · simp [tstep] at hs
  | free k n d =>
    obtain ⟨hl1, hd, hdl, hk⟩ := hl
    have hmem : n ∈ g.held t := by simp [hl1]
    rcases ch with ch | w | x
    · simp only [tstep] at hs
      split at hs
      · simp at hs
      · rename_i h d' hst
        simp only [Option.some.injEq, Prod.mk.injEq] at hs
        obtain ⟨rfl, rfl, rfl⟩ := hs
        obtain ⟨hstep, hdl', hnx, hdt, _⟩ := dStep_inv (cfg := cfg) hsi.heap hmem hd hdl hst
        obtain ⟨ht1, ht2⟩ := dStep_tags hsi.ntag hst
        obtain ⟨h1, h2⟩ := hsi.fl hstep ht1 (fun m hm => by rw [ht2 m hm]; exact Nat.le_refl _)
        exact hi.stay h1 h2 ⟨hl1, by simp [hdt, hd], hdl', hk⟩
      · rename_i h hst
        simp only [Option.some.injEq, Prod.mk.injEq] at hs
        obtain ⟨rfl, rfl, rfl⟩ := hs
        obtain ⟨F', hstep, hnx, hdt, _⟩ := dStep_inv (cfg := cfg) hsi.heap hmem hd hdl hst
        obtain ⟨ht1, ht2⟩ := dStep_tags hsi.ntag hst
        obtain ⟨h1, h2⟩ := hsi.fl hstep ht1 (fun m hm => by rw [ht2 m hm]; exact Nat.le_refl _)
        refine hi.stay h1 h2 ?_
        simp only [upd_self, hl1, List.erase_cons_head]
        cases k with
        | pop v => exact ⟨rfl, .inl hk⟩
        | rsv k => exact ⟨rfl, hk⟩
    · simp [tstep] at hs
    · simp [tstep] at hs
  | eHead =>
    rcases ch with ch | w | x
    · cases ch with
      | go =>
        simp only [tstep, Option.some.injEq, Prod.mk.injEq] at hs
        obtain ⟨rfl, rfl, rfl⟩ := hs
        exact hi.quiet hl
      | spur =>
        simp only [tstep, Option.some.injEq, Prod.mk.injEq] at hs
        obtain ⟨rfl, rfl, rfl⟩ := hs
        exact hi.quiet hl
      | _ => simp [tstep] at hs
    · simp [tstep] at hs
    · simp [tstep] at hs
  | eHead2 T =>
    rcases ch with ch | w | x
    · cases ch with
      | go =>
        simp only [tstep, Option.some.injEq, Prod.mk.injEq] at hs
        obtain ⟨rfl, rfl, rfl⟩ := hs
        exact hi.linear hl.2 (r := .isEmpty (C.s.head.ptr == T.v.ptr)) (σ' := c.st) rfl hsi (.refl _ _ _ _)
          ⟨hl.1, .inl ⟨_, rfl⟩⟩
      | _ => simp [tstep] at hs
    · simp [tstep] at hs
    · simp [tstep] at hs
  | eTail H =>
    rcases ch with ch | w | x
    · cases ch with
      | go =>
        simp only [tstep, Option.some.injEq, Prod.mk.injEq] at hs
        obtain ⟨rfl, rfl, rfl⟩ := hs
        exact hi.linear hl.2 (r := .isEmpty (H.v.ptr == C.s.tail.ptr)) (σ' := c.st) rfl hsi (.refl _ _ _ _)
          ⟨hl.1, .inl ⟨_, rfl⟩⟩
      | _ => simp [tstep] at hs
    · simp [tstep] at hs
    · simp [tstep] at hs
  | rsv k =>
    obtain ⟨hl1, j, hl2⟩ := hl
    rcases ch with ch | w | x
    · cases k with
      | zero =>
        cases ch with
        | go =>
          simp only [tstep, Option.some.injEq, Prod.mk.injEq] at hs
          obtain ⟨rfl, rfl, rfl⟩ := hs
          exact hi.linear hl2 (r := .reserved) (σ' := c.st) rfl hsi (.refl _ _ _ _) ⟨hl1, .inl ⟨_, rfl⟩⟩
        | _ => simp [tstep] at hs
      | succ k =>
        cases ch with
        | go =>
          simp only [tstep, Option.some.injEq, Prod.mk.injEq] at hs
          obtain ⟨rfl, rfl, rfl⟩ := hs
          have htg : TagsOk cfg C.s.heap.malloc := by
            intro m
            have := hsi.ntag m
            simp only [Heap.malloc, upd_apply]; split <;> simp_all
          obtain ⟨h1, h2⟩ := hsi.fl (hsi.heap.malloc (t := t)) htg (fun m hm => by
            simp only [Heap.malloc]; rw [upd_ne _ _ _ (by omega)]; exact Nat.le_refl _)
          refine hi.stay h1 h2 ?_
          simp only [upd_self, hl1]
          exact ⟨rfl, by simp [Heap.malloc], trivial, j, hl2⟩
        | throw =>
          simp only [tstep, Option.some.injEq, Prod.mk.injEq] at hs
          obtain ⟨rfl, rfl, rfl⟩ := hs
          exact hi.linear hl2 (r := .threw) (σ' := c.st) rfl hsi (.refl _ _ _ _) ⟨hl1, .inl ⟨_, rfl⟩⟩
        | _ => simp [tstep] at hs
    · simp [tstep] at hs
    · simp [tstep] at hs
  | ret r =>
    obtain ⟨hl1, hl2⟩ := hl
    rcases ch with ch | w | x
    · cases ch with
      | go =>
        simp only [tstep, Option.some.injEq, Prod.mk.injEq] at hs
        obtain ⟨rfl, rfl, rfl⟩ := hs
        refine hi.close (c' := ⟨c.st, upd c.status t .idle⟩) hsi (.refl _ _ _ _)
          (fun t' h => by simp [upd_ne _ _ _ h]) ⟨hl1, by simp⟩ ?_
        rcases hl2 with ⟨o, h2⟩ | ⟨o, P, h2, h3⟩
        · exact .res h2
        · exact .resObs h2 h3
      | _ => simp [tstep] at hs
    · simp [tstep] at hs
    · simp [tstep] at hs
  | err => exact hl.elim

end Verif.Queue
