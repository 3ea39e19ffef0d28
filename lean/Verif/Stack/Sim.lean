import Verif.Stack.Inv

/-!
# Stack: every step preserves the invariant and is a move of the canonical atomic stack (proof)
-/

namespace Verif.Stack
open Lin

variable {α : Type}

structure GInv (cfg : Cfg) (C : Conf α) (g : G) (c : CState (spec α cfg.fixed)) : Prop where
  si : SI cfg C.s g c.st
  loc : ∀ t, Local cfg C.s g.F g.S (g.held t) (c.status t) (C.pc t)

/-- Result of one step. -/
def Next (cfg : Cfg) (C : Conf α) (g : G) (c : CState (spec α cfg.fixed)) (lk : Bool) (t : Nat) (s' : St α)
    (p' : PC α) (e : Option (Event (Op α) (Ret α))) : Prop :=
  ∃ g' c', GInv cfg ⟨s', upd C.pc t p'⟩ g' c' ∧ CMove (spec α cfg.fixed) c e c' ∧
    Guar lk t C.s g s' g' ∧ ∀ t', t' ≠ t → c'.status t' = c.status t'

section
variable {cfg : Cfg} {C : Conf α} {g : G} {c : CState (spec α cfg.fixed)} {t : Nat} {lk : Bool}

theorem GInv.close (hi : GInv cfg C g c) {s' g' p' e} {c' : CState (spec α cfg.fixed)}
    (hs : SI cfg s' g' c'.st) (hg : Guar lk t C.s g s' g') (hc : ∀ t', t' ≠ t → c'.status t' = c.status t')
    (hl : Local cfg s' g'.F g'.S (g'.held t) (c'.status t) p') (hm : CMove (spec α cfg.fixed) c e c') :
    Next cfg C g c lk t s' p' e := by
  refine ⟨g', c', ⟨hs, fun t' => ?_⟩, hm, hg, hc⟩
  by_cases h : t' = t
  · subst h; simpa using hl
  · have h1 := (hi.loc t').stable (hg.rely hi.si hs h)
    simp only [upd_ne _ _ _ h, hg.others t' h, hc t' h]
    exact h1

theorem GInv.stay (hi : GInv cfg C g c) {s' g' p'} (hs : SI cfg s' g' c.st) (hg : Guar lk t C.s g s' g')
    (hl : Local cfg s' g'.F g'.S (g'.held t) (c.status t) p') : Next cfg C g c lk t s' p' none :=
  hi.close (c' := c) hs hg (fun _ _ => rfl) hl (.stay c)

/-- A purely local step. -/
theorem GInv.quiet (hi : GInv cfg C g c) {p'}
    (hl : Local cfg C.s g.F g.S (g.held t) (c.status t) p') : Next cfg C g c lk t C.s p' none :=
  hi.stay hi.si (.refl _ _ _ _) hl

theorem GInv.linear (hi : GInv cfg C g c) {s' g' p' o r} {σ' : List α} (hp : isPend (c.status t) o)
    (hst : specStep cfg.fixed c.st o r σ') (hs : SI cfg s' g' σ') (hg : Guar lk t C.s g s' g')
    (hl : Local cfg s' g'.F g'.S (g'.held t) (.done o r) p') : Next cfg C g c lk t s' p' none := by
  obtain ⟨P, hP⟩ := hp
  refine hi.close (c' := ⟨σ', upd c.status t (.done o r)⟩) hs hg (fun t' h => by simp [upd_ne _ _ _ h])
    (by simpa using hl) (.lin (S := spec α cfg.fixed) hP hst)

theorem G.held_lose (g : G) : (g.lose t).held t = [] := by simp [G.lose]

end

theorem seen_nil {thr : Option Nat} : seen thr ([] : List α) = [] := by
  cases thr <;> simp [seen]

theorem GInv.step {cfg : Cfg} {C : Conf α} {g : G} {c : CState (spec α cfg.fixed)} (hi : GInv cfg C g c)
    {t : Nat} {ch : Choice (Op α)} {s' p' e} (hs : tstep cfg t C.s (C.pc t) ch = some (s', p', e))
    (hf : fresh cfg C.s (C.pc t)) (hne : ∀ b, ch ≠ .call (.pushRange b [])) :
    Next cfg C g c (leaky (C.pc t) ch) t s' p' e := by
  have hl := hi.loc t
  have hsi := hi.si
  generalize C.pc t = p at hs hl hf ⊢
  cases p with
  | idle =>
    cases ch with
    | call o =>
      simp only [tstep, Option.map_eq_some_iff, Prod.mk.injEq] at hs
      obtain ⟨p, hp, rfl, rfl, rfl⟩ := hs
      obtain ⟨hl1, hl2⟩ := hl
      refine hi.close (c' := ⟨c.st, upd c.status t (.pend o fun _ => False)⟩) hsi (.refl _ _ _ _)
        (fun t' h => by simp [upd_ne _ _ _ h]) ?_ (.inv hl2)
      simp only [upd_self, hl1]
      cases o with
      | push b v => simp [start] at hp; subst hp; exact ⟨rfl, ⟨_, rfl⟩, trivial⟩
      | pushRange b vs =>
        cases vs with
        | nil => exact absurd rfl (hne b)
        | cons v rest =>
          simp [start] at hp; obtain ⟨hfix, rfl⟩ := hp
          exact ⟨⟨rfl, rfl⟩, ⟨_, rfl⟩, trivial, hfix⟩
      | pop thr => simp [start] at hp; subst hp; exact ⟨rfl, _, rfl⟩
      | consumeAll rev thr => simp [start] at hp; subst hp; exact ⟨rfl, _, rfl⟩
      | empty => simp [start] at hp; subst hp; exact ⟨rfl, _, rfl⟩
      | reserve k => simp [start] at hp; obtain ⟨_, rfl⟩ := hp; exact ⟨rfl, _, _, rfl⟩
    | _ => simp [tstep] at hs
  | alloc b k a =>
    have hal : ALocal cfg C.s.heap g.F a := by
      cases k
      · exact hl.2.2
      · exact hl.2.2.1
    simp only [tstep] at hs
    split at hs
    · simp at hs
    · rename_i h a' hst
      obtain ⟨rfl, hal'⟩ := aStep_inv (t := t) hsi.heap hal hf hst
      simp at hs; obtain ⟨rfl, rfl, rfl⟩ := hs
      refine hi.quiet ?_
      cases k with
      | one v => exact ⟨hl.1, hl.2.1, hal'⟩
      | range acc te v rest => exact ⟨hl.1, hl.2.1, hal', hl.2.2.2⟩
    · rename_i h n hst
      obtain ⟨F', hstep, hown, hdn, hfr⟩ := aStep_inv (t := t) hsi.heap hal hf hst
      simp at hs; obtain ⟨rfl, rfl, rfl⟩ := hs
      obtain ⟨h1, h2⟩ := hsi.fl hstep
      refine hi.stay h1 h2 ?_
      simp only [upd_self]
      cases k with
      | one v => exact ⟨by rw [hl.1], hl.2.1, hdn⟩
      | range acc te v rest =>
        refine ⟨_, rfl, ?_, hl.2.1, hdn, hl.2.2.2⟩
        have hfr' : ∀ m ∈ g.held t, h.next m = C.s.heap.next m ∧ h.data m = C.s.heap.data m := by
          intro m hm
          have hm' := (hsi.heap.hmem t m).2 hm
          have := hfr m (by grind)
          exact ⟨this.1, this.2.1⟩
        exact hl.1.congr (fun m hm => by rw [(hfr' m hm).1]) fun m hm => (hfr' m hm).2
    · rename_i h hst
      obtain ⟨rfl, hfb⟩ := aStep_inv (t := t) hsi.heap hal hf hst
      simp at hs; obtain ⟨rfl, rfl, rfl⟩ := hs
      cases k with
      | one v =>
        exact hi.linear hl.2.1 (r := .pushed false) (σ' := c.st) (Or.inr ⟨rfl, hfb, rfl⟩) hsi (.refl _ _ _ _)
          ⟨hl.1, _, rfl⟩
      | range acc te v rest =>
        obtain ⟨hl1, hl2, hl3, hfix⟩ := hl
        cases te with
        | none =>
          obtain ⟨hl1, rfl⟩ := hl1
          exact hi.linear hl2 (r := .count 0) (σ' := c.st) ⟨by simp, by simp [hfb], rfl⟩ hsi (.refl _ _ _ _)
            ⟨hl1, _, rfl⟩
        | some te =>
          obtain ⟨top, e⟩ := te
          obtain ⟨hc, he, hd⟩ := hl1
          refine hi.quiet ⟨_, _, acc.reverse, hc.seg, he, hd, hl2, fun σ => ⟨by simp, by simp [hfb], by simp⟩⟩
    · rename_i h hst
      obtain ⟨rfl, hfb⟩ := aStep_inv (t := t) hsi.heap hal hf hst
      simp at hs; obtain ⟨rfl, rfl, rfl⟩ := hs
      cases k with
      | one v =>
        exact hi.linear hl.2.1 (r := .threw) (σ' := c.st) rfl hsi (.refl _ _ _ _) ⟨hl.1, _, rfl⟩
      | range acc te v rest =>
        obtain ⟨hl1, hl2, hl3, hfix⟩ := hl
        cases te with
        | none =>
          exact hi.linear hl2 (r := .threw) (σ' := c.st) rfl hsi (.refl _ _ _ _) ⟨hl1.1, _, rfl⟩
        | some te =>
          obtain ⟨top, e⟩ := te
          obtain ⟨hc, he, hd⟩ := hl1
          refine hi.linear hl2 (r := .threw) (σ' := c.st) rfl hsi (.refl _ _ _ _) ⟨hc, ?_, _, rfl⟩
          intro m hm hmn
          have : (none : Option α) ∈ (g.held t).map C.s.heap.data := List.mem_map.2 ⟨m, hm, hmn⟩
          rw [hd] at this; simp at this
  | constr b k n =>
    cases ch with
    | go =>
      simp only [tstep] at hs
      have hdn : C.s.heap.data n = none := by
        cases k with
        | one v => exact hl.2.2
        | range acc te v rest => obtain ⟨_, _, _, _, h, _⟩ := hl; exact h
      have hmem : n ∈ g.held t := by
        cases k with
        | one v => simp [hl.1]
        | range acc te v rest => obtain ⟨_, h, _⟩ := hl; simp [h]
      simp only [hdn, Option.isSome_none, Bool.false_eq_true, if_false] at hs
      obtain ⟨h1, h2⟩ := hsi.setData hmem (some k.val)
      cases k with
      | one v =>
        simp at hs; obtain ⟨rfl, rfl, rfl⟩ := hs
        refine hi.stay h1 h2 ?_
        refine ⟨(C.s.heap.next n).ptr, _, [v], ?_, ?_, ?_, hl.2.1, fun σ => Or.inl ⟨rfl, rfl⟩⟩
        · rw [hl.1]; exact ⟨rfl, rfl⟩
        · rw [hl.1]; rfl
        · rw [hl.1]; simp [Heap.setData, PushK.val]
      | range acc te v rest =>
        simp at hs; obtain ⟨rfl, rfl, rfl⟩ := hs
        obtain ⟨l', hl1, hl2, hl3, hl4, hl5⟩ := hl
        refine hi.stay h1 h2 ⟨l', hl1, ?_, hl3, ?_, hl5⟩
        · have hnd := hsi.heap.hnodup t
          rw [hl1, List.nodup_cons] at hnd
          refine hl2.congr (fun m hm => rfl) fun m hm => ?_
          simp [Heap.setData]; rw [upd_ne]; rintro rfl; exact hnd.1 hm
        · simp [Heap.setData, PushK.val]
    | throw =>
      simp only [tstep, Option.some.injEq, Prod.mk.injEq] at hs
      obtain ⟨rfl, rfl, rfl⟩ := hs
      cases k with
      | one v =>
        obtain ⟨h1, h2⟩ := hsi.lose (t := t)
        exact hi.linear hl.2.1 (r := .threw) rfl h1 h2 ⟨g.held_lose, _, rfl⟩
      | range acc te v rest =>
        obtain ⟨l', hl1, hl2, hl3, hl4, hl5⟩ := hl
        cases te with
        | none =>
          obtain ⟨h1, h2⟩ := hsi.lose (t := t)
          exact hi.linear hl3 (r := .threw) rfl h1 h2 ⟨g.held_lose, _, rfl⟩
        | some te =>
          obtain ⟨h1, h2⟩ := hsi.loseOne (t := t) (n := n) (by simp [hl1])
          obtain ⟨top, e⟩ := te
          obtain ⟨hc, he, hd⟩ := hl2
          refine hi.linear hl3 (r := .threw) rfl h1 h2 ?_
          simp only [G.loseOne, upd_self, hl1, List.erase_cons_head]
          refine ⟨hc, ?_, _, rfl⟩
          intro m hm hmn
          have : (none : Option α) ∈ l'.map C.s.heap.data := List.mem_map.2 ⟨m, hm, hmn⟩
          rw [hd] at this; simp at this
    | _ => simp [tstep] at hs
  | rlink b acc te v rest n =>
    cases ch with
    | go =>
      obtain ⟨l', hl1, hl2, hl3, hl4, hl5⟩ := hl
      have hnd := hsi.heap.hnodup t
      rw [hl1, List.nodup_cons] at hnd
      have key : ∀ (p : Option Nat) (e : Nat), Chain C.s.heap.next p l' → (n :: l').getLast? = some e →
          l'.map C.s.heap.data = acc.reverse.map some →
          Next cfg C g c false t { C.s with heap := C.s.heap.setNextPtr n p } (onLinked b (acc ++ [v]) n e rest) none := by
        intro p e hc he hd
        obtain ⟨h1, h2⟩ := hsi.setNext (t := t) (n := n) (by simp [hl1]) p
        have hc' : Chain (C.s.heap.setNextPtr n p).next (some n) (n :: l') := by
          refine ⟨rfl, ?_⟩
          simp only [Heap.setNextPtr, upd_self]
          refine hc.congr fun m hm => ?_
          rw [upd_ne]; rintro rfl; exact hnd.1 hm
        have hd' : (n :: l').map C.s.heap.data = (acc ++ [v]).reverse.map some := by simp [hd, hl4]
        refine hi.stay h1 h2 ?_
        cases rest with
        | nil =>
          simp only [onLinked, hl1]
          exact ⟨_, _, _, hc'.seg, he, hd', hl3, fun σ => ⟨by simp, by simp, by rw [List.take_length]⟩⟩
        | cons w rest' =>
          simp only [onLinked, hl1]
          exact ⟨⟨hc', he, hd'⟩, by simpa using hl3, trivial, hl5⟩
      simp only [tstep] at hs
      cases te with
      | none =>
        simp only [Option.some.injEq, Prod.mk.injEq] at hs
        obtain ⟨rfl, rfl, rfl⟩ := hs
        obtain ⟨rfl, rfl⟩ := hl2
        exact key none n rfl rfl rfl
      | some te =>
        obtain ⟨top, e⟩ := te
        simp only [Option.some.injEq, Prod.mk.injEq] at hs
        obtain ⟨rfl, rfl, rfl⟩ := hs
        obtain ⟨hc, he, hd⟩ := hl2
        refine key (some top) e hc ?_ hd
        cases l' with
        | nil => simp at he
        | cons m l'' => rw [List.getLast?_cons_cons]; exact he
    | _ => simp [tstep] at hs
  | lload top e r =>
    cases ch with
    | go =>
      simp only [tstep, Option.some.injEq, Prod.mk.injEq] at hs
      obtain ⟨rfl, rfl, rfl⟩ := hs
      exact hi.quiet hl
    | _ => simp [tstep] at hs
  | lset top e o r =>
    cases ch with
    | go =>
      simp only [tstep, Option.some.injEq, Prod.mk.injEq] at hs
      obtain ⟨rfl, rfl, rfl⟩ := hs
      obtain ⟨q, op, vs, hsg, he, hd, hp, hsp⟩ := hl
      obtain ⟨h1, h2⟩ := hsi.setNext (t := t) (List.mem_of_getLast? he) o.v.ptr
      refine hi.stay h1 h2 ⟨op, vs, ?_, he, hd, hp, hsp⟩
      exact hsg.setLast he (hsi.heap.hnodup t) ⟨o.v.ptr, (C.s.heap.next e).tag⟩
    | _ => simp [tstep] at hs
  | lcas top e o r =>
    obtain ⟨op, vs, hsg, he, hd, hp, hsp⟩ := hl
    cases ch with
    | go =>
      simp only [tstep] at hs
      split at hs
      · rename_i heq
        simp only [Option.some.injEq, Prod.mk.injEq] at hs
        obtain ⟨rfl, rfl, rfl⟩ := hs
        rw [← heq] at hsg
        obtain ⟨h1, h2⟩ := hsi.link hsg (fun hh => by rw [hh] at he; simp at he) hd
        rw [← heq]
        exact hi.linear hp (hsp c.st) h1 h2 ⟨by simp, _, rfl⟩
      · simp only [Option.some.injEq, Prod.mk.injEq] at hs
        obtain ⟨rfl, rfl, rfl⟩ := hs
        exact hi.quiet ⟨_, op, vs, hsg, he, hd, hp, hsp⟩
    | spur =>
      simp only [tstep, Option.some.injEq, Prod.mk.injEq] at hs
      obtain ⟨rfl, rfl, rfl⟩ := hs
      exact hi.quiet ⟨_, op, vs, hsg, he, hd, hp, hsp⟩
    | _ => simp [tstep] at hs
  | pload thr =>
    cases ch with
    | go =>
      simp only [tstep, Option.some.injEq, Prod.mk.injEq] at hs
      obtain ⟨rfl, rfl, rfl⟩ := hs
      by_cases hn : C.s.tos.ptr = none
      · have he := hsi.empty_iff.1 hn
        refine hi.linear hl.2 (r := .popped none) (σ' := c.st) ⟨he, he⟩ hsi (.refl _ _ _ _) ?_
        exact ⟨hl.1, fun _ => ⟨_, rfl⟩, fun h => absurd hn h, hsi.tosSnap⟩
      · exact hi.quiet ⟨hl.1, fun h => absurd h hn, fun _ => hl.2, hsi.tosSnap⟩
    | _ => simp [tstep] at hs
  | ptest thr o =>
    obtain ⟨hl1, hl2, hl3, hl4⟩ := hl
    simp only [tstep] at hs
    split at hs
    · rename_i ho
      simp only [Option.some.injEq, Prod.mk.injEq] at hs
      obtain ⟨rfl, rfl, rfl⟩ := hs
      exact hi.quiet ⟨hl1, hl2 ho⟩
    · rename_i n ho
      simp only [Option.some.injEq, Prod.mk.injEq] at hs
      obtain ⟨rfl, rfl, rfl⟩ := hs
      exact hi.quiet ⟨hl1, hl3 (by simp [ho]), hl4, n, ho, fun _ => rfl⟩
    · rename_i n x ho
      split at hs
      · simp at hs
      · rename_i hv
        simp only [Option.some.injEq, Prod.mk.injEq] at hs
        obtain ⟨rfl, rfl, rfl⟩ := hs
        exact hi.quiet ⟨hl1, hl3 (by simp [ho]), hl4, n, ho, fun h => absurd h.symm hv⟩
    · simp at hs
  | pcas thr o nx =>
    obtain ⟨hl1, hl2, hl3, n, hn, hnx⟩ := hl
    have retry : Next cfg C g c false t C.s (.ptest thr C.s.tosSnap) none := by
      by_cases hn : C.s.tos.ptr = none
      · have he := hsi.empty_iff.1 hn
        refine hi.linear hl2 (r := .popped none) (σ' := c.st) ⟨he, he⟩ hsi (.refl _ _ _ _) ?_
        exact ⟨hl1, fun _ => ⟨_, rfl⟩, fun h => absurd hn h, hsi.tosSnap⟩
      · exact hi.quiet ⟨hl1, fun h => absurd h hn, fun _ => hl2, hsi.tosSnap⟩
    cases ch with
    | go =>
      simp only [tstep] at hs
      split at hs
      · rename_i heq
        simp only [hn, Option.some.injEq, Prod.mk.injEq] at hs
        obtain ⟨rfl, rfl, rfl⟩ := hs
        have hver : C.s.tosVer = o.ver :=
          ver_eq_of_fresh hl3.1 hf (by rw [← hsi.tag, ← hl3.2.1, heq])
        have hp : C.s.tos.ptr = some n := by rw [heq, hn]
        obtain ⟨v, σ', S', hS, hd, hσ, h1, h2⟩ := hsi.pop hl1 hp
        rw [hnx hver.symm] at h1 h2
        rw [← heq]
        refine hi.linear hl2 (r := .popped (some v)) (σ' := σ') hσ h1 h2 ?_
        simp only [upd_self]
        exact ⟨rfl, v, hd, _, rfl⟩
      · simp only [Option.some.injEq, Prod.mk.injEq] at hs
        obtain ⟨rfl, rfl, rfl⟩ := hs
        exact retry
    | spur =>
      simp only [tstep, Option.some.injEq, Prod.mk.injEq] at hs
      obtain ⟨rfl, rfl, rfl⟩ := hs
      exact retry
    | _ => simp [tstep] at hs
  | papply thr n =>
    obtain ⟨hl1, v, hd, hdone⟩ := hl
    cases ch with
    | go =>
      simp only [tstep, hd] at hs
      split at hs
      · simp only [Option.some.injEq, Prod.mk.injEq] at hs
        obtain ⟨rfl, rfl, rfl⟩ := hs
        obtain ⟨h1, h2⟩ := hsi.lose (t := t)
        have : leaky (PC.papply thr n) (Choice.go : Choice (Op α)) = true := by simp_all [leaky]
        rw [this]
        exact hi.stay h1 h2 ⟨g.held_lose, hdone⟩
      · simp only [Option.some.injEq, Prod.mk.injEq] at hs
        obtain ⟨rfl, rfl, rfl⟩ := hs
        exact hi.quiet ⟨hl1, by simp [hd], hdone⟩
    | _ => simp [tstep] at hs
  | pdestroy n v =>
    obtain ⟨hl1, hd, hdone⟩ := hl
    cases ch with
    | go =>
      simp only [tstep] at hs
      split at hs
      · exact absurd ‹_› hd
      · simp only [Option.some.injEq, Prod.mk.injEq] at hs
        obtain ⟨rfl, rfl, rfl⟩ := hs
        obtain ⟨h1, h2⟩ := hsi.setData (t := t) (n := n) (by simp [hl1]) none
        exact hi.stay h1 h2 ⟨[], hl1, by simp [Heap.setData], trivial, rfl, hdone⟩
    | _ => simp [tstep] at hs
  | free k n d =>
    obtain ⟨l', hl1, hd, hdl, hk⟩ := hl
    have hmem : n ∈ g.held t := by simp [hl1]
    have hnd := hsi.heap.hnodup t
    rw [hl1, List.nodup_cons] at hnd
    have hneq : ∀ m ∈ l', m ≠ n := fun m hm h => hnd.1 (h ▸ hm)
    simp only [tstep] at hs
    split at hs
    · simp at hs
    · rename_i h d' hst
      simp only [Option.some.injEq, Prod.mk.injEq] at hs
      obtain ⟨rfl, rfl, rfl⟩ := hs
      obtain ⟨hstep, hdl', hnx, hdt, _⟩ := dStep_inv (cfg := cfg) hsi.heap hmem hd hdl hst
      obtain ⟨h1, h2⟩ := hsi.fl hstep
      refine hi.stay h1 h2 ⟨l', hl1, by simp [hdt, hd], hdl', ?_⟩
      cases k with
      | pop v => exact hk
      | cons thr acc nx =>
        exact ⟨hk.1.congr fun m hm => by rw [hnx m (hneq m hm)], hk.2.1.congr fun m hm => by simp [hdt], hk.2.2⟩
      | rsv k => exact hk
      | undo nx =>
        exact ⟨hk.1.congr fun m hm => by rw [hnx m (hneq m hm)], fun m hm => by simp only [hdt]; exact hk.2.1 m hm,
          hk.2.2⟩
    · rename_i h hst
      simp only [Option.some.injEq, Prod.mk.injEq] at hs
      obtain ⟨rfl, rfl, rfl⟩ := hs
      obtain ⟨F', hstep, hnx, hdt, _⟩ := dStep_inv (cfg := cfg) hsi.heap hmem hd hdl hst
      obtain ⟨h1, h2⟩ := hsi.fl hstep
      refine hi.stay h1 h2 ?_
      simp only [upd_self, hl1, List.erase_cons_head]
      cases k with
      | pop v => exact hk
      | cons thr acc nx =>
        obtain ⟨hk1, ⟨vals, hv, hdn⟩, hk3⟩ := hk
        cases nx with
        | none =>
          have := hk1.eq_nil
          subst this
          refine ⟨rfl, ?_⟩
          have : vals = [] := by cases vals <;> simp at hv ⊢
          subst this
          have : seen thr (acc ++ []) = acc := by
            rw [List.append_nil]
            cases thr with
            | none => rfl
            | some k => have := hk3 k rfl; exact List.take_of_length_le (by omega)
          rw [this] at hdn; exact hdn
        | some m =>
          exact ⟨hk1.congr fun m hm => by rw [hnx], ⟨vals, by simpa [hdt] using hv, hdn⟩, hk3⟩
      | rsv k => exact hk
      | undo nx =>
        cases nx with
        | none => exact ⟨hk.1.eq_nil, hk.2.2⟩
        | some m =>
          exact ⟨hk.1.congr fun m hm => by rw [hnx], fun m hm => by simp only [hdt]; exact hk.2.1 m hm, hk.2.2⟩
  | cload rev thr =>
    cases ch with
    | go =>
      simp only [tstep, Option.some.injEq, Prod.mk.injEq] at hs
      obtain ⟨rfl, rfl, rfl⟩ := hs
      by_cases hn : C.s.tos.ptr = none
      · have he := hsi.empty_iff.1 hn
        refine hi.linear hl.2 (r := .took []) (σ' := c.st) ⟨by simp [he, seen_nil], he⟩ hsi (.refl _ _ _ _) ?_
        exact ⟨hl.1, fun _ => ⟨_, rfl⟩, fun h => absurd hn h, hsi.tosSnap⟩
      · exact hi.quiet ⟨hl.1, fun h => absurd h hn, fun _ => hl.2, hsi.tosSnap⟩
    | _ => simp [tstep] at hs
  | ctest rev thr o =>
    obtain ⟨hl1, hl2, hl3, hl4⟩ := hl
    cases ch with
    | go =>
      simp only [tstep] at hs
      split at hs
      · rename_i ho
        simp only [Option.some.injEq, Prod.mk.injEq] at hs
        obtain ⟨rfl, rfl, rfl⟩ := hs
        exact hi.quiet ⟨hl1, hl2 ho⟩
      · rename_i n ho
        simp only [Option.some.injEq, Prod.mk.injEq] at hs
        obtain ⟨rfl, rfl, rfl⟩ := hs
        exact hi.quiet ⟨hl1, hl3 (by simp [ho]), hl4, n, ho⟩
    | _ => simp [tstep] at hs
  | ccas rev thr o =>
    obtain ⟨hl1, hl2, hl3, n, hn⟩ := hl
    have retry : Next cfg C g c false t C.s (.ctest rev thr C.s.tosSnap) none := by
      by_cases hn : C.s.tos.ptr = none
      · have he := hsi.empty_iff.1 hn
        refine hi.linear hl2 (r := .took []) (σ' := c.st) ⟨by simp [he, seen_nil], he⟩ hsi (.refl _ _ _ _) ?_
        exact ⟨hl1, fun _ => ⟨_, rfl⟩, fun h => absurd hn h, hsi.tosSnap⟩
      · exact hi.quiet ⟨hl1, fun h => absurd h hn, fun _ => hl2, hsi.tosSnap⟩
    cases ch with
    | go =>
      simp only [tstep] at hs
      split at hs
      · rename_i heq
        simp only [hn, Option.some.injEq, Prod.mk.injEq] at hs
        obtain ⟨rfl, rfl, rfl⟩ := hs
        have hp : C.s.tos.ptr = some n := by rw [heq, hn]
        obtain ⟨h1, h2⟩ := hsi.takeAll hl1
        rw [← heq]
        refine hi.linear hl2 (r := .took (seen thr (if rev then c.st.reverse else c.st)))
          (σ' := ([] : List α)) ⟨rfl, rfl⟩ h1 h2 ?_
        obtain ⟨S', hS, hc⟩ := hsi.chain.head hp
        have hch : Chain C.s.heap.next (some n) g.S := hp ▸ hsi.chain
        simp only [upd_self]
        cases rev with
        | true =>
          refine ⟨[], S', c.st, by simp [hS], by rw [← hS]; exact hch, rfl, hsi.data, _, rfl⟩
        | false =>
          exact ⟨hch, ⟨c.st, hsi.data, _, rfl⟩, fun k hk => by simp⟩
      · simp only [Option.some.injEq, Prod.mk.injEq] at hs
        obtain ⟨rfl, rfl, rfl⟩ := hs
        exact retry
    | spur =>
      simp only [tstep, Option.some.injEq, Prod.mk.injEq] at hs
      obtain ⟨rfl, rfl, rfl⟩ := hs
      exact retry
    | _ => simp [tstep] at hs
  | crev thr n last =>
    cases ch with
    | go =>
      simp only [tstep, Option.some.injEq, Prod.mk.injEq] at hs
      obtain ⟨rfl, rfl, rfl⟩ := hs
      obtain ⟨A, B, vals, h1, h2, h3⟩ := hl
      exact hi.quiet ⟨A, B, vals, h1, h2.2, h3⟩
    | _ => simp [tstep] at hs
  | crevSet thr n last nx =>
    cases ch with
    | go =>
      simp only [tstep, Option.some.injEq, Prod.mk.injEq] at hs
      obtain ⟨rfl, rfl, rfl⟩ := hs
      obtain ⟨A, B, vals, hl1, hl2, hl3, hl4, hl5⟩ := hl
      have hnd := hsi.heap.hnodup t
      have hmem : n ∈ g.held t := by simp [hl1]
      obtain ⟨h1, h2⟩ := hsi.setNext hmem last
      have hA : Chain (C.s.heap.setNextPtr n last).next (some n) (A ++ [n]).reverse := by
        rw [List.reverse_append]
        refine ⟨rfl, ?_⟩
        simp only [Heap.setNextPtr, upd_self]
        refine hl3.congr fun m hm => ?_
        rw [upd_ne]
        rintro rfl
        rw [hl1] at hnd
        simp [List.nodup_append] at hnd hm
        grind
      have hB : Chain (C.s.heap.setNextPtr n last).next nx B := by
        refine hl2.congr fun m hm => ?_
        simp only [Heap.setNextPtr]
        rw [upd_ne]
        rintro rfl
        rw [hl1] at hnd
        simp [List.nodup_append] at hnd
        grind
      cases nx with
      | none =>
        have := hl2.eq_nil
        subst this
        have hfix : SI cfg { C.s with heap := C.s.heap.setNextPtr n last }
            { g with held := upd g.held t (g.held t).reverse } c.st := by
          refine ⟨⟨h1.heap.chain, h1.heap.fnodup, h1.heap.fmem, ?_, ?_, h1.heap.raw, h1.heap.tag, h1.heap.fdata⟩,
            h1.chain, h1.nodup, h1.mem, h1.tag, h1.data⟩
          · intro t' m; have := h1.heap.hmem t' m; simp only [upd_apply]; grind
          · intro t'; have := h1.heap.hnodup t'; simp only [upd_apply]; grind [List.Nodup]
        refine hi.stay hfix ⟨?_, h2.frame, h2.nalloc, h2.pver, h2.pF, h2.tver, h2.tS, fun _ h => h, fun _ h => .inl h, fun _ _ h => .inl h,
          fun _ => .inl rfl, fun _ _ => Iff.rfl, fun _ _ => Iff.rfl⟩ ?_
        · intro t' ht; simp [upd_ne _ _ _ ht]
        · simp only [upd_self]
          rw [hl1]
          refine ⟨hA, ⟨vals.reverse, ?_, by simpa using hl5⟩, fun k hk => by simp⟩
          rw [hl1] at hl4
          simp only [List.map_reverse]
          rw [show (C.s.heap.setNextPtr n last).data = C.s.heap.data from rfl, hl4]
      | some m =>
        refine hi.stay h1 h2 ?_
        obtain ⟨B', rfl, hB'⟩ := hB.head rfl
        exact ⟨A ++ [n], B', vals, by simp [hl1], hB, hA, hl4, hl5⟩
    | _ => simp [tstep] at hs
  | capply thr n acc =>
    cases ch with
    | go =>
      obtain ⟨hc, ⟨vals, hv, hdn⟩, hnt⟩ := hl
      obtain ⟨l', hl1, hc'⟩ := hc.head rfl
      rw [hl1] at hv
      cases vals with
      | nil => simp at hv
      | cons v vals =>
        simp only [List.map_cons, List.cons.injEq] at hv
        simp only [tstep, hv.1] at hs
        split at hs
        · rename_i hthr
          simp only [Option.some.injEq, Prod.mk.injEq] at hs
          obtain ⟨rfl, rfl, rfl⟩ := hs
          obtain ⟨h1, h2⟩ := hsi.lose (t := t)
          have : leaky (PC.capply thr n acc) (Choice.go : Choice (Op α)) = true := by simp [leaky, hthr]
          rw [this]
          refine hi.stay h1 h2 ⟨g.held_lose, ?_⟩
          have : seen thr (acc ++ v :: vals) = acc ++ [v] := by
            subst hthr; simp [seen, List.take_append, List.take_of_length_le]
          rw [this] at hdn; exact hdn
        · rename_i hthr
          simp only [Option.some.injEq, Prod.mk.injEq] at hs
          obtain ⟨rfl, rfl, rfl⟩ := hs
          refine hi.quiet ⟨l', hl1, hc, by simp [hv.1], ⟨vals, hv.2, by simpa using hdn⟩, ?_⟩
          intro k hk
          have := hnt k hk
          have : k ≠ acc.length := by rintro rfl; exact hthr hk
          simp; omega
    | _ => simp [tstep] at hs
  | cread thr n acc =>
    cases ch with
    | go =>
      simp only [tstep, Option.some.injEq, Prod.mk.injEq] at hs
      obtain ⟨rfl, rfl, rfl⟩ := hs
      obtain ⟨l', h1, h2, h3⟩ := hl
      rw [h1] at h2
      exact hi.quiet ⟨l', h1, h2.2, h3⟩
    | _ => simp [tstep] at hs
  | cdestroy thr n acc nx =>
    cases ch with
    | go =>
      obtain ⟨l', hl1, hc, hd, hrem, hnt⟩ := hl
      simp only [tstep] at hs
      split at hs
      · exact absurd ‹_› hd
      · simp only [Option.some.injEq, Prod.mk.injEq] at hs
        obtain ⟨rfl, rfl, rfl⟩ := hs
        obtain ⟨h1, h2⟩ := hsi.setData (t := t) (n := n) (by simp [hl1]) none
        have hnd := hsi.heap.hnodup t
        rw [hl1, List.nodup_cons] at hnd
        refine hi.stay h1 h2 ⟨l', hl1, by simp [Heap.setData], trivial, hc, hrem.congr fun m hm => ?_, hnt⟩
        simp only [Heap.setData]; rw [upd_ne]; rintro rfl; exact hnd.1 hm
    | _ => simp [tstep] at hs
  | eload =>
    cases ch with
    | go =>
      simp only [tstep, Option.some.injEq, Prod.mk.injEq] at hs
      obtain ⟨rfl, rfl, rfl⟩ := hs
      refine hi.linear hl.2 (r := .isEmpty C.s.tos.ptr.isNone) (σ' := c.st) ⟨?_, rfl⟩ hsi (.refl _ _ _ _) ⟨hl.1, _, rfl⟩
      have := hsi.empty_iff
      simpa using this
    | _ => simp [tstep] at hs
  | rsv k =>
    cases k with
    | zero =>
      cases ch with
      | go =>
        simp only [tstep, Option.some.injEq, Prod.mk.injEq] at hs
        obtain ⟨rfl, rfl, rfl⟩ := hs
        obtain ⟨h1, j, h2⟩ := hl
        exact hi.linear h2 (r := .reserved) (σ' := c.st) rfl hsi (.refl _ _ _ _) ⟨h1, _, rfl⟩
      | _ => simp [tstep] at hs
    | succ k =>
      obtain ⟨hl1, j, hl2⟩ := hl
      cases ch with
      | go =>
        simp only [tstep, Option.some.injEq, Prod.mk.injEq] at hs
        obtain ⟨rfl, rfl, rfl⟩ := hs
        obtain ⟨h1, h2⟩ := hsi.fl (hsi.heap.malloc (t := t))
        refine hi.stay h1 h2 ?_
        simp only [upd_self, hl1]
        exact ⟨[], rfl, by simp [Heap.malloc], trivial, rfl, j, hl2⟩
      | throw =>
        simp only [tstep, Option.some.injEq, Prod.mk.injEq] at hs
        obtain ⟨rfl, rfl, rfl⟩ := hs
        exact hi.linear hl2 (r := .threw) (σ' := c.st) rfl hsi (.refl _ _ _ _) ⟨hl1, _, rfl⟩
      | _ => simp [tstep] at hs
  | undo n =>
    cases ch with
    | go =>
      simp only [tstep, Option.some.injEq, Prod.mk.injEq] at hs
      obtain ⟨rfl, rfl, rfl⟩ := hs
      obtain ⟨h1, h2, h3⟩ := hl
      obtain ⟨l', hl1, hc⟩ := h1.head rfl
      exact hi.quiet ⟨l', hl1, hc, h2, h3⟩
    | _ => simp [tstep] at hs
  | undoD n nx =>
    cases ch with
    | go =>
      obtain ⟨l', hl1, hc, hd, hdn⟩ := hl
      simp only [tstep] at hs
      split at hs
      · exact absurd ‹_› (hd n (by simp [hl1]))
      · simp only [Option.some.injEq, Prod.mk.injEq] at hs
        obtain ⟨rfl, rfl, rfl⟩ := hs
        obtain ⟨h1, h2⟩ := hsi.setData (t := t) (n := n) (by simp [hl1]) none
        have hnd := hsi.heap.hnodup t
        rw [hl1, List.nodup_cons] at hnd
        refine hi.stay h1 h2 ⟨l', hl1, by simp [Heap.setData], trivial, hc, fun m hm => ?_, hdn⟩
        simp only [Heap.setData]; rw [upd_ne]
        · exact hd m (by simp [hl1, hm])
        · rintro rfl; exact hnd.1 hm
    | _ => simp [tstep] at hs
  | ret r =>
    cases ch with
    | go =>
      simp only [tstep, Option.some.injEq, Prod.mk.injEq] at hs
      obtain ⟨rfl, rfl, rfl⟩ := hs
      obtain ⟨h1, o, h2⟩ := hl
      refine hi.close (c' := ⟨c.st, upd c.status t .idle⟩) hsi (.refl _ _ _ _)
        (fun t' h => by simp [upd_ne _ _ _ h]) ⟨h1, by simp⟩ (.res h2)
    | _ => simp [tstep] at hs
  | err => exact hl.elim

end Verif.Stack
