import Verif.ExampleEnd

/-!
# The example programs under release/acquire memory: what the last `pop` of a consumer has seen

No further code of /repo is modelled here. The container machine has a clock for every thread (what the thread knows of each thread) and a list of released clocks.
-/

namespace Verif.Example
open Lin

variable {S P Ch O R O' R' : Type}

/-- A container machine with clocks, for a program whose threads synchronise by releasing (`post`) and acquiring (`wait k`) clocks. -/
structure Clocked (m : Mach S P Ch O R) (x : Setup Ch R) (post : Ch) (wait : Nat → Ch) (clock : S → Nat → Nat → Nat) (posted : S → List (Nat → Nat))
    (evc : Event O R → Nat → Nat) : Prop where
  other : ∀ t s p ch s' p' e, m.step t s p ch = some (s', p', e) → ∀ u, u ≠ t → clock s' u = clock s u
  mono : ∀ t s p ch s' p' e, m.step t s p ch = some (s', p', e) → ∀ u, clock s t u ≤ clock s' t u
  event : ∀ t s p ch s' p' e, m.step t s p ch = some (s', p', some e) → evc e = clock s' t
  inside : ∀ t s p ch s' p' e, p ≠ m.idle → m.step t s p ch = some (s', p', e) → posted s' = posted s
  push : ∀ t s v s' p' e, m.step t s m.idle (x.push v) = some (s', p', e) → posted s' = posted s
  pop : ∀ t s s' p' e, m.step t s m.idle x.pop = some (s', p', e) → posted s' = posted s
  posting : ∀ t s s' p' e, m.step t s m.idle post = some (s', p', e) → posted s' = posted s ++ [clock s' t]
  waiting : ∀ t s k s' p' e, m.step t s m.idle (wait k) = some (s', p', e) →
    posted s' = posted s ∧ ∃ v, (posted s)[k]? = some v ∧ ∀ u, v u ≤ clock s' t u
  /-- a producer releases at its end; `main` acquires this when it has joined the producers, and releases with `done = true`; a consumer acquires this when it loads `true` -/
  exits : x.exit = [post]
  joins : x.join = (List.range x.producers).map wait
  publishes : x.publish = [post]
  sees : x.see = [wait x.producers]

/-- `v` knows all events of producers. -/
def Cov (x : Setup Ch R) (evc : Event O R → Nat → Nat) (h : History O R) (v : Nat → Nat) : Prop :=
  ∀ e ∈ h, e.tid < x.producers → evc e e.tid ≤ v e.tid

/-- The event at position `i` knows all events of producers. -/
def CovAt (x : Setup Ch R) (evc : Event O R → Nat → Nat) (h : History O R) (i : Nat) : Prop :=
  ∃ f, h[i]? = some f ∧ Cov x evc h (evc f)

/-- 1 for a thread that has ended. -/
def isEnded : PC P → Nat
  | .at .ended => 1
  | _ => 0

theorem isEnded_le (p : PC P) : isEnded p ≤ 1 := by unfold isEnded; split <;> simp

theorem isEnded_zero {p : PC P} (h : p ≠ .at .ended) : isEnded p = 0 := by
  unfold isEnded
  split
  · exact absurd rfl h
  · rfl

/-- The consumer has loaded `true` from `done` and has not left. -/
def Past (p : PC P) : Prop := p.here = .pop true ∨ p.here = .counted true

structure WInv (x : Setup Ch R) (push : Nat → O') (pop : O') (res : R' → Option Bool) (so : O → O') (sr : R → R')
    (clock : S → Nat → Nat → Nat) (posted : S → List (Nat → Nat)) (evc : Event O R → Nat → Nat) (h : History O R) (C : MConf (S × Vars) (PC P)) : Prop where
  ev : ∀ e ∈ h, evc e e.tid ≤ clock C.s.1 e.tid e.tid
  posts : C.s.2.done = false → (posted C.s.1).length = total isEnded C.pc x.producers
  exited : ∀ t < x.producers, C.pc t = .at .ended → ∃ v ∈ posted C.s.1, ∀ e ∈ h, e.tid = t → evc e t ≤ v t
  joined : C.pc x.main = .at .setDone → Cov x evc h (clock C.s.1 x.main)
  published : C.s.2.done = true → ∃ v, (posted C.s.1)[x.producers]? = some v ∧ Cov x evc h v
  past : ∀ t, Past (C.pc t) → Cov x evc h (clock C.s.1 t)
  late : ∀ t p, C.pc t = .call (.pop true) p → ∀ i o, Pending (h.map (strip so sr)) t i o → CovAt x evc h i
  final : ∀ t, x.producers ≤ t → C.pc t = .at .leave ∨ C.pc t = .at .ended →
    ∃ (i j : Nat) (r : R'), (h.map (strip so sr))[i]? = some (.inv t pop) ∧ Returned (h.map (strip so sr)) i j r ∧ res r = some false ∧
      Late push (h.map (strip so sr)) i ∧ CovAt x evc h i

section
variable {m : Mach S P Ch O R} {x : Setup Ch R} {push : Nat → O'} {pop : O'} {res rpush : R' → Option Bool} {so : O → O'} {sr : R → R'}
  {post : Ch} {wait : Nat → Ch} {clock : S → Nat → Nat → Nat} {posted : S → List (Nat → Nat)} {evc : Event O R → Nat → Nat}
  {put get : O' → R' → List Nat} {h : History O R} {C : MConf (S × Vars) (PC P)} {ok : S → P → Ch → Prop}

theorem Cov.mono {v w : Nat → Nat} (hc : Cov x evc h v) (hle : ∀ u, v u ≤ w u) : Cov x evc h w :=
  fun e he ht => Nat.le_trans (hc e he ht) (hle _)

theorem Cov.append {v : Nat → Nat} (hc : Cov x evc h v) {l : History O R} (hl : ∀ e ∈ l, x.producers ≤ e.tid) : Cov x evc (h ++ l) v := by
  intro e he ht
  rcases List.mem_append.1 he with he | he
  · exact hc e he ht
  · exact absurd (hl e he) (by omega)

theorem CovAt.append {i : Nat} (hc : CovAt x evc h i) {l : History O R} (hl : ∀ e ∈ l, x.producers ≤ e.tid) : CovAt x evc (h ++ l) i := by
  obtain ⟨f, h1, h2⟩ := hc
  exact ⟨f, by rw [List.getElem?_append_left (lt_of_getElem? h1)]; exact h1, h2.append hl⟩

theorem quiet_single {t : Nat} {s s' : S} {ch : Ch} (h : quiet m t s [ch] = some s') : ∃ p', m.step t s m.idle ch = some (s', p', none) := by
  simp only [quiet] at h
  split at h
  · rename_i h1
    cases h
    exact ⟨_, h1⟩
  · cases h

/-- Several acquisitions. -/
theorem Clocked.waits (hc : Clocked m x post wait clock posted evc) {t : Nat} {l : List Nat} {s s' : S} (hq : quiet m t s (l.map wait) = some s') :
    (∀ u, u ≠ t → clock s' u = clock s u) ∧ (∀ u, clock s t u ≤ clock s' t u) ∧ posted s' = posted s ∧
      ∀ k ∈ l, ∃ v, (posted s)[k]? = some v ∧ ∀ u, v u ≤ clock s' t u := by
  induction l generalizing s with
  | nil => cases hq; exact ⟨fun _ _ => rfl, fun _ => Nat.le_refl _, rfl, nofun⟩
  | cons k l ih =>
    simp only [List.map_cons, quiet] at hq
    split at hq
    · rename_i s₁ p₁ h1
      obtain ⟨h2, h3, h4, h5⟩ := ih hq
      obtain ⟨h6, v, h7, h8⟩ := hc.waiting _ _ _ _ _ _ h1
      refine ⟨fun u hu => (h2 u hu).trans (hc.other _ _ _ _ _ _ _ h1 u hu), fun u => Nat.le_trans (hc.mono _ _ _ _ _ _ _ h1 u) (h3 u), h4.trans h6, ?_⟩
      intro k' hk'
      rcases List.mem_cons.1 hk' with rfl | hk'
      · exact ⟨v, h7, fun u => Nat.le_trans (h8 u) (h3 u)⟩
      · rw [← h6]; exact h5 k' hk'
    · cases hq

/-- What a step does to clocks, and who made it. -/
structure Ticks (m : Mach S P Ch O R) (x : Setup Ch R) (clock : S → Nat → Nat → Nat) (posted : S → List (Nat → Nat)) (evc : Event O R → Nat → Nat)
    (t : Nat) (s s' : S) (p : PC P) (e : Option (Event O R)) : Prop where
  other : ∀ u, u ≠ t → clock s' u = clock s u
  mono : ∀ u, clock s t u ≤ clock s' t u
  event : ∀ ev, e = some ev → evc ev = clock s' t ∧ ev.tid = t
  posts : ∃ l, posted s' = posted s ++ l
  alive : p ≠ .at .ended

theorem Trans.ticks (hpl : Plays m x ok) (hc : Clocked m x post wait clock posted evc) {t s g p ch s' g' p' e}
    (hs : Trans m x t s g p ch s' g' p' e) (hb : ∀ a q, p = .call a q → q ≠ m.idle) : Ticks m x clock posted evc t s s' p e := by
  have same : e = none → s' = s → p ≠ .at .ended → Ticks m x clock posted evc t s s' p e := by
    rintro rfl rfl hp
    exact ⟨fun _ _ => rfl, fun _ => Nat.le_refl _, nofun, ⟨[], by simp⟩, hp⟩
  have one : ∀ {q ch q'}, m.step t s q ch = some (s', q', e) → (∀ ev, e = some ev → ev.tid = t) → (∃ l, posted s' = posted s ++ l) → p ≠ .at .ended →
      Ticks m x clock posted evc t s s' p e := by
    intro q ch q' h1 h2 h3 h4
    refine ⟨hc.other _ _ _ _ _ _ _ h1, hc.mono _ _ _ _ _ _ _ h1, ?_, h3, h4⟩
    rintro ev rfl
    exact ⟨hc.event _ _ _ _ _ _ _ h1, h2 _ rfl⟩
  have eq : ∀ {l}, l = posted s → ∃ l', l = posted s ++ l' := fun h => ⟨[], by simp [h]⟩
  cases hs with
  | more | count | test | counted | leave | joined => exact same rfl rfl (by simp)
  | exit _ h1 =>
    rw [hc.exits] at h1
    obtain ⟨_, h1⟩ := quiet_single h1
    exact one h1 nofun ⟨_, hc.posting _ _ _ _ _ h1⟩ (by simp)
  | publish h1 =>
    rw [hc.publishes] at h1
    obtain ⟨_, h1⟩ := quiet_single h1
    exact one h1 nofun ⟨_, hc.posting _ _ _ _ _ h1⟩ (by simp)
  | see _ h1 =>
    rw [hc.sees] at h1
    obtain ⟨_, h1⟩ := quiet_single h1
    exact one h1 nofun (eq (hc.waiting _ _ _ _ _ _ h1).1) (by simp)
  | join _ h1 =>
    rw [hc.joins] at h1
    obtain ⟨h2, h3, h4, -⟩ := hc.waits h1
    exact ⟨h2, h3, nofun, eq h4, by simp⟩
  | push h1 =>
    obtain ⟨_, o, rfl⟩ := hpl.push _ _ _ _ _ _ h1
    exact one h1 (by rintro _ ⟨⟩; rfl) (eq (hc.push _ _ _ _ _ _ h1)) (by simp)
  | pop h1 =>
    obtain ⟨_, o, rfl⟩ := hpl.pop _ _ _ _ _ h1
    exact one h1 (by rintro _ ⟨⟩; rfl) (eq (hc.pop _ _ _ _ _ h1)) (by simp)
  | inside h1 _ =>
    have h2 := hb _ _ rfl
    refine one h1 ?_ (eq (hc.inside _ _ _ _ _ _ _ h2 h1)) (by simp)
    rcases hpl.step _ _ _ _ _ _ _ h2 h1 with ⟨rfl, _⟩ | ⟨r, rfl, _⟩
    · nofun
    · rintro _ ⟨⟩; rfl
  | finish h1 =>
    have h2 := hb _ _ rfl
    refine one h1 ?_ (eq (hc.inside _ _ _ _ _ _ _ h2 h1)) (by simp)
    rcases hpl.step _ _ _ _ _ _ _ h2 h1 with ⟨h3, _⟩ | ⟨r, h3, _⟩
    · cases h3
    · cases h3; rintro _ ⟨⟩; rfl

theorem WInv.initial (s : S) (h0 : posted s = []) : WInv x push pop res so sr clock posted evc [] (initial (P := P) x s) := by
  have hmp : ¬ x.main < x.producers := Nat.not_lt.2 (Nat.le_add_right _ _)
  refine ⟨nofun, ?_, ?_, ?_, ?_, ?_, ?_, ?_⟩
  · intro _
    rw [total_const (k := 0)]
    · simp [Example.initial, h0]
    · intro u hu; simp only [Example.initial]; rw [if_pos hu]; rfl
  · intro t ht h; simp [Example.initial, ht] at h
  · intro h; simp [Example.initial, hmp] at h
  · intro h; simp [Example.initial] at h
  · intro t h
    simp only [Example.initial, Past, PC.here] at h
    split at h
    · simp at h
    · split at h
      · simp at h
      · split at h <;> simp at h
  · intro t p h; simp [Example.initial] at h
  · intro t _ h
    simp only [Example.initial] at h
    split at h
    · simp at h
    · split at h
      · simp at h
      · split at h <;> simp at h

theorem WInv.step (hpl : Plays m x ok) (hrd : Reads m x so sr push pop rpush res put get) (hc : Clocked m x post wait clock posted evc)
    (hi : Inv m x push pop res put get (h.map (strip so sr)) C) (hw : WInv x push pop res so sr clock posted evc h C) {t : Nat} {ch σ' p' e}
    (hs : (mach m x).step t C.s (C.pc t) ch = some (σ', p', e)) :
    WInv x push pop res so sr clock posted evc (h ++ e.toList) ⟨σ', upd C.pc t p'⟩ := by
  have hpm : x.producers ≤ x.main := Nat.le_add_right _ _
  have hs' := trans_of_step hs
  have hr := hi.role t
  obtain ⟨s₂, g₂⟩ := σ'
  simp only at hs'
  have htk := hs'.ticks hpl hc (fun a q hq => (hi.busy t a q hq).1)
  have hle : ∀ u v, clock C.s.1 u v ≤ clock s₂ u v := by
    intro u v
    by_cases hu : u = t
    · subst hu; exact htk.mono v
    · rw [htk.other u hu]; exact Nat.le_refl _
  have hnew : ∀ ev ∈ e.toList, evc ev = clock s₂ t ∧ ev.tid = t := by
    intro ev hev
    cases e with
    | none => simp at hev
    | some e => simp at hev; subst hev; exact htk.event _ rfl
  obtain ⟨ps, hps⟩ := htk.posts
  -- once all producers have ended, `t` is not one of them
  have hnotp : (∀ u < x.producers, C.pc u = .at .ended) → x.producers ≤ t := by
    intro h1
    refine Nat.not_lt.1 fun h2 => htk.alive (h1 t h2)
  have hfar : (∀ u < x.producers, C.pc u = .at .ended) → ∀ ev ∈ e.toList, x.producers ≤ ev.tid := by
    intro h1 ev hev
    rw [(hnew ev hev).2]; exact hnotp h1
  have hend : C.s.2.done = true → ∀ u < x.producers, C.pc u = .at .ended := fun hd u hu => hi.producers_ended hd hu
  have hev : ∀ ev ∈ h ++ e.toList, evc ev ev.tid ≤ clock s₂ ev.tid ev.tid := by
    intro ev he
    rcases List.mem_append.1 he with he | he
    · exact Nat.le_trans (hw.ev ev he) (hle _ _)
    · rw [(hnew ev he).1, (hnew ev he).2]; exact Nat.le_refl _
  have hdoneP : ∀ u, Past (C.pc u) → C.s.2.done = true := by
    intro u hu
    refine hi.last u ?_
    rcases hu with h | h <;> simp [h]
  -- the view of `t`, if it has seen `done`
  have hpast : Past (C.pc t) → Cov x evc (h ++ e.toList) (clock s₂ t) := fun h1 =>
    ((hw.past t h1).mono (hle t)).append (hfar (hend (hdoneP t h1)))
  have hstrip : (h ++ e.toList).map (strip so sr) = h.map (strip so sr) ++ (e.map (strip so sr)).toList := by
    rw [List.map_append]; cases e <;> rfl
  have hi' := hi.step hpl hrd hs
  have hmk : ((C.s.2.done = false → g₂.done = false → (posted s₂).length = total isEnded (upd C.pc t p') x.producers) ∧
      (t < x.producers → p' = .at .ended → ∃ v ∈ posted s₂, v = clock s₂ t) ∧
      (t = x.main → p' = .at .setDone → Cov x evc (h ++ e.toList) (clock s₂ t)) ∧
      (C.s.2.done = true → g₂.done = true) ∧
      (g₂.done = true → C.s.2.done = true ∨ ∃ v, (posted s₂)[x.producers]? = some v ∧ Cov x evc (h ++ e.toList) v) ∧
      (Past p' → Cov x evc (h ++ e.toList) (clock s₂ t)) ∧
      (∀ q, p' = .call (.pop true) q → (∃ q', C.pc t = .call (.pop true) q' ∧ e = none) ∨ (∃ ev, e = some ev)) ∧
      (x.producers ≤ t → p' = .at .leave ∨ p' = .at .ended → (C.pc t = .at .leave ∧ e = none) ∨
        ∃ q r, C.pc t = .call (.pop true) q ∧ e = some (.res t r) ∧ res (sr r) = some false)) →
      WInv x push pop res so sr clock posted evc (h ++ e.toList) ⟨(s₂, g₂), upd C.pc t p'⟩ := by
    rintro ⟨a1, a2, a3, a4, a5, a6, a7, a8⟩
    refine ⟨hev, ?_, ?_, ?_, ?_, ?_, ?_, ?_⟩
    · intro hd
      refine a1 ?_ hd
      cases hdc : C.s.2.done with
      | false => rfl
      | true => exact absurd (a4 hdc) (by simp only at hd; rw [hd]; simp)
    · intro u hu hp
      by_cases hut : u = t
      · subst hut
        simp only [upd_self] at hp
        obtain ⟨v, hv, rfl⟩ := a2 hu hp
        exact ⟨_, hv, fun ev he ht => by have := hev ev he; rw [ht] at this; exact this⟩
      · simp only [upd_ne _ _ _ hut] at hp
        obtain ⟨v, hv, h1⟩ := hw.exited u hu hp
        refine ⟨v, by simp only [hps]; simp [hv], fun ev he ht => ?_⟩
        rcases List.mem_append.1 he with he | he
        · exact h1 ev he ht
        · exact absurd ((hnew ev he).2.symm.trans ht).symm hut
    · intro hp
      by_cases hm : t = x.main
      · subst hm
        simp only [upd_self] at hp
        exact a3 rfl hp
      · simp only [upd_ne _ _ _ (Ne.symm hm)] at hp
        exact ((hw.joined hp).mono (hle _)).append (hfar (hi.main (.inl hp)))
    · intro hd
      rcases a5 hd with h1 | h1
      · obtain ⟨v, h2, h3⟩ := hw.published h1
        refine ⟨v, ?_, h3.append (hfar (hend h1))⟩
        simp only [hps]
        rw [List.getElem?_append_left (List.getElem?_eq_some_iff.1 h2).1]; exact h2
      · exact h1
    · intro u hp
      by_cases hut : u = t
      · subst hut
        simp only [upd_self] at hp
        exact a6 hp
      · simp only [upd_ne _ _ _ hut] at hp
        exact ((hw.past u hp).mono (hle u)).append (hfar (hend (hdoneP u hp)))
    · intro u q hp i o hpe
      rw [hstrip] at hpe
      by_cases hut : u = t
      · subst hut
        simp only [upd_self] at hp
        rcases a7 q hp with ⟨q', h1, rfl⟩ | ⟨ev, rfl⟩
        · simp only [Option.toList_none, List.append_nil, Option.map_none] at hpe ⊢
          exact hw.late u q' h1 i o hpe
        · have hil : i = h.length := by
            have h1 := lt_of_getElem? hpe.1
            simp at h1
            by_cases h2 : i < h.length
            · refine absurd ?_ (hpe.2 h.length (strip so sr ev) h2 (by simp))
              rw [strip_tid]; exact (hnew ev (by simp)).2
            · omega
          subst hil
          refine ⟨ev, by simp, ?_⟩
          rw [(hnew ev (by simp)).1]
          exact a6 (by rw [hp]; exact .inl rfl)
      · simp only [upd_ne _ _ _ hut] at hp
        have hpast' : Past (C.pc u) := by rw [hp]; exact .inl rfl
        have hold : Pending (h.map (strip so sr)) u i o := by
          cases e with
          | none => simpa using hpe
          | some ev =>
            simp only [Option.map_some, Option.toList_some] at hpe
            have h1 := lt_of_getElem? hpe.1
            simp at h1
            by_cases h2 : i < h.length
            · exact (hpe.unsnoc (by simpa using h2)).1
            · have h3 := hpe.1
              have : i = (h.map (strip so sr)).length := by simp; omega
              subst this
              simp at h3
              have h4 : ev.tid = u := by
                have := congrArg Event.tid h3
                rw [strip_tid] at this; exact this
              exact absurd (h4.symm.trans (hnew ev (by simp)).2) hut
        exact (hw.late u q hp i o hold).append (hfar (hend (hdoneP u hpast')))
    · intro u hu hp
      rw [hstrip]
      have keep : C.s.2.done = true → ∀ i j r, (h.map (strip so sr))[i]? = some (.inv u pop) → Returned (h.map (strip so sr)) i j r → res r = some false →
          Late push (h.map (strip so sr)) i → CovAt x evc h i →
          ∃ (i j : Nat) (r : R'), (h.map (strip so sr) ++ (e.map (strip so sr)).toList)[i]? = some (.inv u pop) ∧
            Returned (h.map (strip so sr) ++ (e.map (strip so sr)).toList) i j r ∧ res r = some false ∧
            Late push (h.map (strip so sr) ++ (e.map (strip so sr)).toList) i ∧ CovAt x evc (h ++ e.toList) i := by
        intro hd i j r h1 h2 h3 h4 h5
        refine ⟨i, j, r, ?_, ?_, h3, ?_, h5.append (hfar (hend hd))⟩
        · rw [List.getElem?_append_left (lt_of_getElem? h1)]; exact h1
        · cases e with
          | none => simpa using h2
          | some ev => exact h2.snoc
        · cases e with
          | none => simpa using h4
          | some ev =>
            refine h4.snoc fun w v heq => ?_
            have h6 : ev.tid = w := by
              have := congrArg Event.tid heq
              rw [strip_tid] at this; exact this
            have h7 : (h.map (strip so sr) ++ ((some ev).map (strip so sr)).toList)[(h.map (strip so sr)).length]? = some (.inv w (push v)) := by
              simp [heq]
            rcases hi'.ops _ _ _ h7 with ⟨h8, _⟩ | ⟨_, _, h8⟩
            · have := hfar (hend hd) ev (by simp); omega
            · exact hrd.ne v h8
      by_cases hut : u = t
      · subst hut
        simp only [upd_self] at hp
        rcases a8 hu hp with ⟨h1, rfl⟩ | ⟨q, r, h1, rfl, h3⟩
        · obtain ⟨i, j, r, b1, b2, b3, b4, b5⟩ := hw.final u hu (.inl h1)
          exact keep (hi.last u (by rw [h1]; simp [PC.here])) i j r b1 b2 b3 b4 b5
        · obtain ⟨_, i, o, hpe, ho⟩ := hi.busy u _ _ h1
          cases ho
          have hil := lt_of_getElem? hpe.1
          have hd := hdoneP u (by rw [h1]; exact .inl rfl)
          refine ⟨i, (h.map (strip so sr)).length, sr r, ?_, hpe.returned _, h3, ?_, (hw.late u q h1 i _ hpe).append (hfar (hend hd))⟩
          · rw [List.getElem?_append_left hil]; exact hpe.1
          · exact (hi.late u _ h1 i _ hpe).snoc (by simp [strip])
      · simp only [upd_ne _ _ _ hut] at hp
        obtain ⟨i, j, r, b1, b2, b3, b4, b5⟩ := hw.final u hu hp
        exact keep (hi.last u (by rcases hp with h | h <;> rw [h] <;> simp [PC.here, hu])) i j r b1 b2 b3 b4 b5
  -- steps that release nothing
  have hcount : isEnded p' = isEnded (C.pc t) → posted s₂ = posted C.s.1 →
      C.s.2.done = false → (posted s₂).length = total isEnded (upd C.pc t p') x.producers := by
    intro h1 h2 hd
    rw [h2, hw.posts hd]
    by_cases ht : t < x.producers
    · have := total_upd isEnded C.pc p' ht
      omega
    · rw [total_upd_ge _ _ _ (by omega)]
  have hcountC : x.producers ≤ t → posted s₂ = posted C.s.1 →
      C.s.2.done = false → (posted s₂).length = total isEnded (upd C.pc t p') x.producers := by
    intro h1 h2 hd
    rw [h2, hw.posts hd, total_upd_ge _ _ _ h1]
  have hz := isEnded_zero htk.alive
  generalize hp : C.pc t = p at hs' hr hpast hz hcount
  cases hs' with
  | exit h1 h2 =>
    rw [hc.exits] at h2
    obtain ⟨_, h2⟩ := quiet_single h2
    have h3 := hc.posting _ _ _ _ _ h2
    simp only [Role] at hr
    refine hmk ⟨?_, ?_, ?_, id, fun h => .inl h, ?_, nofun, ?_⟩
    · intro hd _
      have := total_upd isEnded C.pc (.at .ended) hr
      rw [hp, hz] at this
      have h4 := hw.posts hd
      rw [h3, List.length_append, h4]
      simp only [List.length_singleton]
      exact this.symm
    · intro _ _; exact ⟨_, by rw [h3]; simp, rfl⟩
    · simp
    · simp [Past, PC.here]
    · omega
  | more h1 =>
    refine hmk ⟨fun hd _ => hcount (by simp [isEnded]) rfl hd, ?_, ?_, id, fun h => .inl h, ?_, nofun, ?_⟩ <;> simp [Past, PC.here]
  | count =>
    refine hmk ⟨fun hd _ => hcount (by simp [isEnded]) rfl hd, ?_, ?_, id, fun h => .inl h, ?_, nofun, ?_⟩ <;> simp [Past, PC.here]
  | push h1 =>
    refine hmk ⟨fun hd _ => hcount (by simp [isEnded]) (hc.push _ _ _ _ _ _ h1) hd, ?_, ?_, id, fun h => .inl h, ?_, nofun, ?_⟩ <;> simp [Past, PC.here]
  | see h1 h2 =>
    rw [hc.sees] at h2
    obtain ⟨_, h2⟩ := quiet_single h2
    obtain ⟨h3, v, h4, h5⟩ := hc.waiting _ _ _ _ _ _ h2
    refine hmk ⟨fun hd _ => hcount (by simp [isEnded]) h3 hd, by simp, by simp, id, fun h => .inl h, ?_, nofun, by simp⟩
    intro _
    obtain ⟨w, h6, h7⟩ := hw.published h1
    rw [h4] at h6
    cases h6
    exact (h7.mono h5).append nofun
  | test =>
    refine hmk ⟨fun hd _ => hcount (by simp [isEnded]) rfl hd, ?_, ?_, id, fun h => .inl h, ?_, nofun, ?_⟩ <;> simp [Past, PC.here]
  | pop h1 =>
    obtain ⟨_, o, rfl⟩ := hpl.pop _ _ _ _ _ h1
    refine hmk ⟨fun hd _ => hcount (by simp [isEnded]) (hc.pop _ _ _ _ _ h1) hd, by simp, by simp, id, fun h => .inl h, ?_, ?_, by simp⟩
    · intro h2; exact hpast h2
    · intro _ _; exact .inr ⟨_, rfl⟩
  | counted =>
    refine hmk ⟨fun hd _ => hcount (by simp [isEnded]) rfl hd, by simp, by simp, id, fun h => .inl h, ?_, nofun, by simp⟩
    intro h2
    refine hpast ?_
    simp only [Past, PC.here, At.pop.injEq, reduceCtorEq, or_false] at h2
    subst h2
    exact .inr rfl
  | leave =>
    simp only [Role] at hr
    refine hmk ⟨fun hd _ => hcountC hr.1 rfl hd, by omega, by simp, id, fun h => .inl h, by simp [Past, PC.here], nofun, ?_⟩
    intro _ _; exact .inl ⟨hp, rfl⟩
  | join h1 h2 =>
    rw [hc.joins] at h2
    obtain ⟨-, -, h4, h5⟩ := hc.waits h2
    simp only [Role] at hr
    subst hr
    have hd : C.s.2.done = false := by
      cases hd : C.s.2.done with
      | false => rfl
      | true => rcases hi.done hd with h | h <;> rw [hp] at h <;> cases h
    have hall : ∀ u < x.producers, C.pc u = .at .ended := fun u hu => hi.ended u (h1 u hu)
    have hlen : (posted C.s.1).length = x.producers := by
      rw [hw.posts hd, total_const (k := 1)]
      · simp
      · intro u hu; rw [hall u hu]; rfl
    refine hmk ⟨fun hd _ => hcountC hpm h4 hd, by omega, ?_, id, fun h => .inl h, by simp [Past, PC.here], nofun, by simp⟩
    intro _ _ ev he ht
    simp only [Option.toList_none, List.append_nil] at he
    obtain ⟨v, hv, h6⟩ := hw.exited _ ht (hall _ ht)
    obtain ⟨k, hk, h7⟩ := List.getElem_of_mem hv
    obtain ⟨w, h8, h9⟩ := h5 k (by simp; omega)
    rw [List.getElem?_eq_getElem hk, h7] at h8
    cases h8
    exact Nat.le_trans (h6 ev he rfl) (h9 _)
  | publish h1 =>
    rw [hc.publishes] at h1
    obtain ⟨_, h1⟩ := quiet_single h1
    have h3 := hc.posting _ _ _ _ _ h1
    simp only [Role] at hr
    subst hr
    have hd : C.s.2.done = false := by
      cases hd : C.s.2.done with
      | false => rfl
      | true => rcases hi.done hd with h | h <;> rw [hp] at h <;> cases h
    have hall : ∀ u < x.producers, C.pc u = .at .ended := hi.main (.inl hp)
    have hlen : (posted C.s.1).length = x.producers := by
      rw [hw.posts hd, total_const (k := 1)]
      · simp
      · intro u hu; rw [hall u hu]; rfl
    refine hmk ⟨by simp, by simp, by simp, fun _ => rfl, fun _ => .inr ⟨clock s₂ x.main, ?_, ?_⟩, by simp [Past, PC.here], nofun, by simp⟩
    · rw [h3, ← hlen]; simp
    · exact ((hw.joined hp).mono (hle _)).append nofun
  | joined h1 =>
    simp only [Role] at hr
    refine hmk ⟨fun hd _ => hcountC (by omega) rfl hd, by simp, by simp, id, fun h => .inl h, by simp [Past, PC.here], nofun, by simp⟩
  | @inside a q ch s' q' e h1 h2 =>
    have hq := (hi.busy t _ _ hp).1
    rcases hpl.step _ _ _ _ _ _ _ hq h1 with ⟨rfl, _⟩ | ⟨r, rfl, _⟩
    · refine hmk ⟨fun hd _ => hcount (by simp [isEnded]) (hc.inside _ _ _ _ _ _ _ hq h1) hd, by simp, by simp, id, fun h => .inl h, ?_, ?_, by simp⟩
      · intro h3; exact hpast h3
      · rintro q'' h3
        cases h3
        exact .inl ⟨q, hp, rfl⟩
    · exact absurd rfl (h2 _ _)
  | @finish a q ch s' q' u r h1 =>
    have hq := (hi.busy t _ _ hp).1
    have hu : u = t := by
      rcases hpl.step _ _ _ _ _ _ _ hq h1 with ⟨h3, _⟩ | ⟨r, h3, _⟩
      · cases h3
      · cases h3; rfl
    subst hu
    have h3 := hc.inside _ _ _ _ _ _ _ hq h1
    match a, hr with
    | .push i v, hr =>
      simp only [Role] at hr
      have h4 : ∃ a', after (.push i v) (x.result (.push i v) r) = a' ∧ (a' = .terminated ∨ a' = .forTest (i + 1) ∨ a' = .push i v) := by
        refine ⟨_, rfl, ?_⟩
        cases x.result (.push i v) r with
        | none => exact .inl rfl
        | some b => cases b <;> simp [after]
      obtain ⟨a', h4, h5⟩ := h4
      rw [h4] at hmk hcount ⊢
      refine hmk ⟨fun hd _ => hcount ?_ h3 hd, ?_, ?_, id, fun h => .inl h, ?_, nofun, by omega⟩
      · rcases h5 with rfl | rfl | rfl <;> rfl
      · rcases h5 with rfl | rfl | rfl <;> simp
      · rcases h5 with rfl | rfl | rfl <;> simp
      · rcases h5 with rfl | rfl | rfl <;> simp [Past, PC.here]
    | .pop l, hr =>
      simp only [Role] at hr
      have hres : x.result (.pop l) r = res (sr r) := by rw [Setup.result, hrd.popped]; nofun
      refine hmk ⟨fun hd _ => hcountC hr.1 h3 hd, by omega, by omega, id, fun h => .inl h, ?_, nofun, ?_⟩
      · intro h4
        refine hpast ?_
        rw [hres] at h4
        cases hrr : res (sr r) with
        | none => rw [hrr] at h4; simp [Past, PC.here, after] at h4
        | some b =>
          rw [hrr] at h4
          cases b <;> cases l <;> simp [Past, PC.here, after] at h4 ⊢
      · intro _ h4
        rw [hres] at h4
        cases hrr : res (sr r) with
        | none => rw [hrr] at h4; simp [after] at h4
        | some b =>
          rw [hrr] at h4
          cases b <;> cases l <;> simp [after] at h4
          exact .inr ⟨q, r, hp, rfl, hrr⟩

theorem Runs.winv (hpl : Plays m x ok) (hrd : Reads m x so sr push pop rpush res put get) (hc : Clocked m x post wait clock posted evc)
    {s : S} (h0 : posted s = []) (hx : Runs m x ok s h C) : WInv x push pop res so sr clock posted evc h C := by
  induction hx with
  | refl => exact WInv.initial s h0
  | @step h C t ch σ' p' e hx hs hok ih => exact ih.step hpl hrd hc (Runs.inv hpl hrd hx) hs

/-- When `main` prints, every consumer has made a `pop` that found the container empty, and the return of every `push` happens before it. -/
theorem Runs.last_pop (hpl : Plays m x ok) (hrd : Reads m x so sr push pop rpush res put get) (hc : Clocked m x post wait clock posted evc)
    {s : S} (h0 : posted s = []) (hx : Runs m x ok s h C) (hp : C.pc x.main = .at .print) {t : Nat} (ht : x.producers ≤ t) (ht' : t < x.main) :
    ∃ (i j : Nat) (r : R'), (h.map (strip so sr))[i]? = some (.inv t pop) ∧ Returned (h.map (strip so sr)) i j r ∧ res r = some false ∧
      ∀ (k u v : Nat), (h.map (strip so sr))[k]? = some (.inv u (push v)) →
        ∃ j r, Returned (h.map (strip so sr)) k j r ∧ j < i ∧ ∃ e f, h[j]? = some e ∧ h[i]? = some f ∧ evc e e.tid ≤ evc f e.tid := by
  have hi := Runs.inv hpl hrd hx
  have hw := hx.winv hpl hrd hc h0
  obtain ⟨i, j, r, h1, h2, h3, h4, f, h5, h6⟩ := hw.final t ht (.inr (hi.over hp _ ht'))
  refine ⟨i, j, r, h1, h2, h3, fun k u v hk => ?_⟩
  obtain ⟨j', r', h7, h8⟩ := h4 k u v hk
  refine ⟨j', r', h7, h8, ?_⟩
  have hu : u < x.producers := by
    rcases hi.ops _ _ _ hk with ⟨h, _⟩ | ⟨_, _, h⟩
    · exact h
    · exact absurd h (hrd.ne v)
  obtain ⟨u', o', h9, _, h10, _⟩ := h7
  rw [hk] at h9
  cases h9
  simp only [List.getElem?_map, Option.map_eq_some_iff] at h10
  obtain ⟨e, h11, h12⟩ := h10
  have h13 : e.tid = u := by
    have := congrArg Event.tid h12
    rw [strip_tid] at this; exact this
  exact ⟨e, f, h11, h5, h6 e (List.mem_of_getElem? h11) (by omega)⟩

end

end Verif.Example
