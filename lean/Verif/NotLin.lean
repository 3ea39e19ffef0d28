import Verif.Mach

/-!
# Concrete histories that are not linearizable, and concrete executions

No code of /repo is modelled here. `searchLin` looks for a linearization of a history whose calls all returned;
`not_linearizable` says that a failed search means that there is none. It is used to show that the specifications do
exclude wrong histories, and for the negative claims. `Mach.runOk` runs a schedule and checks the restriction on steps.
-/

namespace Verif.Lin

variable {O R : Type}

/-- A call that returned: position of the invocation and of the response, operation and result. -/
structure Call (O R : Type) where
  i : Nat
  j : Nat
  o : O
  r : R

/-- Next event of thread `t` in a history that starts at position `n`, if it is a response. -/
def respOf (t : Nat) : Nat → History O R → Option (Nat × R)
  | _, [] => none
  | n, .inv t' _ :: h => if t' = t then none else respOf t (n + 1) h
  | n, .res t' r :: h => if t' = t then some (n, r) else respOf t (n + 1) h

/-- All calls of a history that starts at position `n`; `none` if one is pending. -/
def allCalls : Nat → History O R → Option (List (Call O R))
  | _, [] => some []
  | n, .inv t o :: h => match respOf t (n + 1) h, allCalls (n + 1) h with
    | some (j, r), some l => some (⟨n, j, o, r⟩ :: l)
    | _, _ => none
  | n, .res _ _ :: h => allCalls (n + 1) h

/-- Depth-first search for a legal order of the calls that respects real time. -/
def search {Q : Type} (next : Q → O → R → Option Q) : Nat → Q → List (Call O R) → Bool
  | 0, _, K => K.isEmpty
  | n + 1, σ, K => K.isEmpty || K.any fun c => K.all (fun d => !decide (d.j < c.i)) &&
      match next σ c.o c.r with
      | none => false
      | some σ' => search next n σ' (K.filter fun d => !decide (d.i = c.i))

def searchLin {Q : Type} (next : Q → O → R → Option Q) (σ : Q) (h : History O R) : Bool :=
  match allCalls 0 h with
  | none => true
  | some K => search next K.length σ K

theorem respOf_spec {t : Nat} {h : History O R} {n j r} (hr : respOf t n h = some (j, r)) :
    ∃ m, j = n + m ∧ h[m]? = some (.res t r) ∧ ∀ k e, k < m → h[k]? = some e → e.tid ≠ t := by
  induction h generalizing n with
  | nil => simp [respOf] at hr
  | cons e h ih =>
    have key : respOf t (n + 1) h = some (j, r) → e.tid ≠ t →
        ∃ m, j = n + m ∧ (e :: h)[m]? = some (.res t r) ∧ ∀ k e', k < m → (e :: h)[k]? = some e' → e'.tid ≠ t := by
      intro h1 h2
      obtain ⟨m, h3, h4, h5⟩ := ih h1
      refine ⟨m + 1, by omega, by simpa using h4, fun k e' h6 h7 => ?_⟩
      cases k with
      | zero => simp at h7; subst h7; exact h2
      | succ k => exact h5 k e' (by omega) (by simpa using h7)
    cases e with
    | inv t' o =>
      simp only [respOf] at hr
      split at hr
      · simp at hr
      · rename_i h1; exact key hr h1
    | res t' r' =>
      simp only [respOf] at hr
      split at hr
      · rename_i h1
        simp only [Option.some.injEq, Prod.mk.injEq] at hr
        obtain ⟨rfl, rfl⟩ := hr
        subst h1
        exact ⟨0, rfl, rfl, fun k e h => by omega⟩
      · rename_i h1; exact key hr h1

theorem allCalls_spec {h : History O R} {n : Nat} {K} (hK : allCalls n h = some K) :
    (∀ c ∈ K, ∃ m m' t, c.i = n + m ∧ c.j = n + m' ∧ m < m' ∧ h[m]? = some (.inv t c.o) ∧
      h[m']? = some (.res t c.r) ∧ ∀ k e, m < k → k < m' → h[k]? = some e → e.tid ≠ t) ∧
    ∀ m t o, h[m]? = some (.inv t o) → ∃ c ∈ K, c.i = n + m ∧ c.o = o := by
  induction h generalizing n K with
  | nil => simp [allCalls] at hK; subst hK; simp
  | cons e h ih =>
    have lift : ∀ {K'}, allCalls (n + 1) h = some K' →
        (∀ c ∈ K', ∃ m m' t, c.i = n + m ∧ c.j = n + m' ∧ m < m' ∧ (e :: h)[m]? = some (.inv t c.o) ∧
          (e :: h)[m']? = some (.res t c.r) ∧ ∀ k e', m < k → k < m' → (e :: h)[k]? = some e' → e'.tid ≠ t) ∧
        ∀ m t o, h[m]? = some (.inv t o) → ∃ c ∈ K', c.i = n + (m + 1) ∧ c.o = o := by
      intro K' h1
      obtain ⟨h2, h3⟩ := ih h1
      constructor
      · intro c hc
        obtain ⟨m, m', t, g1, g2, g3, g4, g5, g6⟩ := h2 c hc
        refine ⟨m + 1, m' + 1, t, by omega, by omega, by omega, by simpa using g4, by simpa using g5, ?_⟩
        intro k e' k1 k2 k3
        cases k with
        | zero => omega
        | succ k => exact g6 k e' (by omega) (by omega) (by simpa using k3)
      · intro m t o hm
        obtain ⟨c, g1, g2, g3⟩ := h3 m t o hm
        exact ⟨c, g1, by omega, g3⟩
    cases e with
    | res t r =>
      simp only [allCalls] at hK
      obtain ⟨h1, h2⟩ := lift hK
      refine ⟨h1, fun m t o hm => ?_⟩
      cases m with
      | zero => simp at hm
      | succ m => exact h2 m t o (by simpa using hm)
    | inv t o =>
      simp only [allCalls] at hK
      split at hK
      · rename_i j r l hr hl
        simp only [Option.some.injEq] at hK
        subst hK
        obtain ⟨h1, h2⟩ := lift hl
        constructor
        · intro c hc
          rcases List.mem_cons.1 hc with rfl | hc
          · obtain ⟨m, g1, g2, g3⟩ := respOf_spec hr
            refine ⟨0, m + 1, t, rfl, by simp only; omega, by omega, rfl, by simpa using g2, ?_⟩
            intro k e' k1 k2 k3
            cases k with
            | zero => omega
            | succ k => exact g3 k e' (by omega) (by simpa using k3)
          · exact h1 c hc
        · intro m t' o' hm
          cases m with
          | zero =>
            simp at hm
            exact ⟨_, List.mem_cons_self, rfl, hm.2⟩
          | succ m =>
            obtain ⟨c, g1, g2, g3⟩ := h2 m t' o' (by simpa using hm)
            exact ⟨c, List.mem_cons_of_mem _ g1, g2, g3⟩
      · simp at hK

theorem search_complete {S : Spec O R} {next : S.State → O → R → Option S.State}
    (hnext : ∀ σ o r σ', S.step σ o r σ' → next σ o r = some σ') {h : History O R}
    {L : List (Nat × O × R)} {K : List (Call O R)} {σ σ' n} (hn : K.length ≤ n)
    (hrun : Run S σ L σ') (hreal : L.Pairwise fun a b => ¬ ∃ j r, Returned h b.1 j r ∧ j < a.1)
    (hnd : (L.map (·.1)).Nodup)
    (hLK : ∀ x ∈ L, ∃ c ∈ K, c.i = x.1 ∧ c.o = x.2.1 ∧ c.r = x.2.2)
    (hKL : ∀ c ∈ K, ∃ x ∈ L, x.1 = c.i) (hret : ∀ c ∈ K, c.i < c.j ∧ Returned h c.i c.j c.r) :
    search next n σ K = true := by
  induction L generalizing K σ n with
  | nil =>
    have : K = [] := by
      cases K with
      | nil => rfl
      | cons c K => obtain ⟨x, hx, _⟩ := hKL c List.mem_cons_self; simp at hx
    subst this
    cases n <;> simp [search]
  | cons x L ih =>
    obtain ⟨i, o, r⟩ := x
    cases hrun with
    | cons hstep hrun =>
      cases n with
      | zero =>
        obtain ⟨c, hc, _⟩ := hLK _ List.mem_cons_self
        cases K <;> simp at hn hc
      | succ n =>
        obtain ⟨c, hc, h1, h2, h3⟩ := hLK _ List.mem_cons_self
        simp only at h1 h2 h3
        simp only [search, Bool.or_eq_true, List.any_eq_true, Bool.and_eq_true, List.all_eq_true]
        refine .inr ⟨c, hc, fun d hd => ?_, ?_⟩
        · simp only [Bool.not_eq_true', decide_eq_false_iff_not]
          intro hlt
          obtain ⟨y, hy, hyi⟩ := hKL d hd
          obtain ⟨g1, g2⟩ := hret d hd
          rcases List.mem_cons.1 hy with rfl | hy
          · simp only at hyi; omega
          · refine List.rel_of_pairwise_cons hreal hy ⟨d.j, d.r, ?_, ?_⟩
            · rw [hyi]; exact g2
            · simp only; omega
        · rw [h2, h3, hnext _ _ _ _ hstep]
          simp only [List.map_cons, List.nodup_cons] at hnd
          refine ih ?_ hrun (List.Pairwise.of_cons hreal) hnd.2 ?_ ?_ ?_
          · have : (K.filter fun d => !decide (d.i = c.i)).length < K.length :=
              List.length_filter_lt_length_iff_exists.2 ⟨c, hc, by simp⟩
            omega
          · intro y hy
            obtain ⟨d, hd, g1, g2, g3⟩ := hLK y (List.mem_cons_of_mem _ hy)
            refine ⟨d, ?_, g1, g2, g3⟩
            simp only [List.mem_filter, Bool.not_eq_true', decide_eq_false_iff_not]
            refine ⟨hd, fun h => hnd.1 ?_⟩
            rw [← h1, ← h, g1]
            exact List.mem_map_of_mem hy
          · intro d hd
            simp only [List.mem_filter, Bool.not_eq_true', decide_eq_false_iff_not] at hd
            obtain ⟨y, hy, hyi⟩ := hKL d hd.1
            rcases List.mem_cons.1 hy with rfl | hy
            · simp only at hyi; omega
            · exact ⟨y, hy, hyi⟩
          · intro d hd
            exact hret d (List.mem_filter.1 hd).1

theorem eq_of_fst {A B : Type} {L : List (A × B)} (hnd : (L.map (·.1)).Nodup) {x y} (hx : x ∈ L) (hy : y ∈ L)
    (h : x.1 = y.1) : x = y := by
  induction L with
  | nil => simp at hx
  | cons z L ih =>
    simp only [List.map_cons, List.nodup_cons] at hnd
    rcases List.mem_cons.1 hx with rfl | hx'
    · rcases List.mem_cons.1 hy with rfl | hy
      · rfl
      · exact absurd (h ▸ List.mem_map_of_mem (f := (·.1)) hy) hnd.1
    · rcases List.mem_cons.1 hy with rfl | hy
      · exact absurd (h ▸ List.mem_map_of_mem (f := (·.1)) hx') hnd.1
      · exact ih hnd.2 hx' hy

/-- A failed search proves that there is no linearization. -/
theorem not_linearizable {S : Spec O R} {h : History O R} (next : S.State → O → R → Option S.State)
    (hnext : ∀ σ o r σ', S.step σ o r σ' → next σ o r = some σ') (hs : searchLin next S.init h = false) :
    ¬ Linearizable S h := by
  rintro ⟨L, hL⟩
  unfold searchLin at hs
  split at hs
  · simp at hs
  · rename_i K hK
    obtain ⟨h1, h2⟩ := allCalls_spec hK
    have hret : ∀ c ∈ K, c.i < c.j ∧ Returned h c.i c.j c.r := by
      intro c hc
      obtain ⟨m, m', t, g1, g2, g3, g4, g5, g6⟩ := h1 c hc
      simp only [Nat.zero_add] at g1 g2
      subst g1 g2
      exact ⟨g3, t, c.o, g4, g3, g5, g6⟩
    have hop : ∀ c ∈ K, ∃ t, h[c.i]? = some (.inv t c.o) := by
      intro c hc
      obtain ⟨m, m', t, g1, g2, g3, g4, g5, g6⟩ := h1 c hc
      simp only [Nat.zero_add] at g1
      subst g1
      exact ⟨t, g4⟩
    have hLK : ∀ x ∈ L, ∃ c ∈ K, c.i = x.1 ∧ c.o = x.2.1 ∧ c.r = x.2.2 := by
      intro x hx
      obtain ⟨t, g1⟩ := hL.invoked x hx
      obtain ⟨c, hc, g2, g3⟩ := h2 _ _ _ g1
      simp only [Nat.zero_add] at g2
      refine ⟨c, hc, g2, g3, ?_⟩
      obtain ⟨o, g4⟩ := hL.complete _ _ _ (hret c hc).2
      have : (c.i, o, c.r) = x := by
        have hnd := hL.nodup
        exact eq_of_fst hnd g4 hx g2
      rw [← this]
    have hKL : ∀ c ∈ K, ∃ x ∈ L, x.1 = c.i := by
      intro c hc
      obtain ⟨o, g4⟩ := hL.complete _ _ _ (hret c hc).2
      exact ⟨_, g4, rfl⟩
    obtain ⟨σ, hrun⟩ := hL.legal
    rw [search_complete hnext (Nat.le_refl _) hrun hL.realtime hL.nodup hLK hKL hret] at hs
    simp at hs

end Verif.Lin

namespace Verif
open Lin

variable {S P Ch O R : Type}

/-- Run a schedule as long as the steps satisfy a computable restriction. -/
def Mach.runOk (m : Mach S P Ch O R) (okb : S → P → Ch → Bool) : MConf S P → History O R → List (Nat × Ch) →
    Option (MConf S P × History O R)
  | C, h, [] => some (C, h)
  | C, h, (t, ch) :: l =>
    if okb C.s (C.pc t) ch then
      match m.step t C.s (C.pc t) ch with
      | none => none
      | some (s', p', e) => m.runOk okb ⟨s', upd C.pc t p'⟩ (h ++ e.toList) l
    else none

theorem MSteps.runOk {m : Mach S P Ch O R} {ok : S → P → Ch → Prop} {okb : S → P → Ch → Bool}
    (hok : ∀ s p ch, okb s p ch = true → ok s p ch) {sched : List (Nat × Ch)} {C₀ C C₁ : MConf S P} {h h' : History O R}
    (hx : MSteps m ok C₀ h C) (hr : m.runOk okb C h sched = some (C₁, h')) : MSteps m ok C₀ h' C₁ := by
  induction sched generalizing C h with
  | nil => simp [Mach.runOk] at hr; obtain ⟨rfl, rfl⟩ := hr; exact hx
  | cons a l ih =>
    obtain ⟨t, ch⟩ := a
    simp only [Mach.runOk] at hr
    split at hr
    · rename_i hb
      split at hr
      · simp at hr
      · rename_i s' p' e hs
        exact ih (.step hx hs (hok _ _ _ hb)) hr
    · simp at hr

/-- The history a schedule produces, and what `view` shows of the final configuration. -/
def Mach.trace {V : Type} (m : Mach S P Ch O R) (okb : S → P → Ch → Bool) (view : MConf S P → V) (C : MConf S P)
    (sched : List (Nat × Ch)) : Option (V × History O R) :=
  (m.runOk okb C [] sched).map fun x => (view x.1, x.2)

theorem Mach.trace_steps {V : Type} {m : Mach S P Ch O R} {ok : S → P → Ch → Prop} {okb : S → P → Ch → Bool}
    (hok : ∀ s p ch, okb s p ch = true → ok s p ch) {view : MConf S P → V} {C : MConf S P} {sched v h}
    (ht : m.trace okb view C sched = some (v, h)) : ∃ C', MSteps m ok C h C' ∧ view C' = v := by
  simp only [Mach.trace, Option.map_eq_some_iff, Prod.mk.injEq] at ht
  obtain ⟨⟨C', h'⟩, h1, h2, rfl⟩ := ht
  exact ⟨C', MSteps.runOk hok (.refl _) h1, h2⟩

end Verif
