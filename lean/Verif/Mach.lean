import Verif.Lin

/-!
# Multi-threaded machines: executions and generic facts about them
-/

namespace Verif
open Lin

/-- A machine: what one step of thread `t` at a given PC does to the shared state, depending on a choice that
resolves nondeterminism. -/
structure Mach (S P Ch O R : Type) where
  step : Nat → S → P → Ch → Option (S × P × Option (Event O R))
  idle : P
  ret : R → P

/-- Global configuration: shared state and the PC of every thread. -/
structure MConf (S P : Type) where
  s : S
  pc : Nat → P

variable {S P Ch O R : Type}

/-- `MSteps m ok C h C'`: `C'` is reached from `C` by steps of arbitrary threads satisfying `ok`, producing the
events `h`. -/
inductive MSteps (m : Mach S P Ch O R) (ok : S → P → Ch → Prop) :
    MConf S P → History O R → MConf S P → Prop where
  | refl (C) : MSteps m ok C [] C
  | step {C₀ h C t ch s' p' e} : MSteps m ok C₀ h C → m.step t C.s (C.pc t) ch = some (s', p', e) →
      ok C.s (C.pc t) ch → MSteps m ok C₀ (h ++ e.toList) ⟨s', upd C.pc t p'⟩

/-- Run a schedule: which thread makes the next step, with which choice. -/
def Mach.run (m : Mach S P Ch O R) : MConf S P → History O R → List (Nat × Ch) →
    Option (MConf S P × History O R)
  | C, h, [] => some (C, h)
  | C, h, (t, ch) :: l =>
    match m.step t C.s (C.pc t) ch with
    | none => none
    | some (s', p', e) => m.run ⟨s', upd C.pc t p'⟩ (h ++ e.toList) l

/-- Events are invocations from the idle PC and responses from `ret r`. -/
def Mach.Lawful (m : Mach S P Ch O R) : Prop :=
  ∀ t s p ch s' p' e, m.step t s p ch = some (s', p', some e) →
    (p = m.idle ∧ ∃ o, e = .inv t o) ∨ ∃ r, p = m.ret r ∧ p' = m.idle ∧ e = .res t r

variable {m : Mach S P Ch O R} {ok ok' : S → P → Ch → Prop} {C₀ C C₁ C₂ : MConf S P} {h h₁ h₂ : History O R}

theorem MSteps.trans (h1 : MSteps m ok C₀ h₁ C₁) (h2 : MSteps m ok C₁ h₂ C₂) :
    MSteps m ok C₀ (h₁ ++ h₂) C₂ := by
  induction h2 with
  | refl => simpa using h1
  | step _ hs hok ih => rw [← List.append_assoc]; exact .step ih hs hok

theorem MSteps.mono (hm : ∀ s p ch, ok s p ch → ok' s p ch) (hs : MSteps m ok C₀ h C) :
    MSteps m ok' C₀ h C := by
  induction hs with
  | refl => exact .refl _
  | step _ hs hok ih => exact .step ih hs (hm _ _ _ hok)

theorem MSteps.run {sched : List (Nat × Ch)} {h'} (hx : MSteps m ok C₀ h C)
    (hok : ∀ s p ch, ok s p ch) (hr : m.run C h sched = some (C₁, h')) : MSteps m ok C₀ h' C₁ := by
  induction sched generalizing C h with
  | nil => simp [Mach.run] at hr; obtain ⟨rfl, rfl⟩ := hr; exact hx
  | cons a l ih =>
    obtain ⟨t, ch⟩ := a
    simp only [Mach.run] at hr
    split at hr
    · simp at hr
    · rename_i s' p' e hs
      exact ih (.step hx hs (hok _ _ _)) hr

theorem Mach.Lawful.event (hl : m.Lawful) {t s p ch s' p' e} (hs : m.step t s p ch = some (s', p', some e)) :
    (p = m.idle ∨ p' = m.idle) ∧ e.tid = t := by
  rcases hl _ _ _ _ _ _ _ hs with ⟨h, o, rfl⟩ | ⟨r, _, h, rfl⟩
  · exact ⟨.inl h, rfl⟩
  · exact ⟨.inr h, rfl⟩

/-- How a local condition came about: if `Q` holds of the PC of `t` now, then at an earlier moment of the same
call (no event of `t` since) it was established, i.e. `A` held. -/
theorem MSteps.origin (hlaw : m.Lawful) {t : Nat} (Q : P → Prop)
    (A : MConf S P → Prop) (hidle : ¬ Q m.idle) (h0 : ¬ Q (C₀.pc t))
    (hQ : ∀ h C ch s' p' e, MSteps m ok C₀ h C → m.step t C.s (C.pc t) ch = some (s', p', e) →
      ok C.s (C.pc t) ch → Q p' → Q (C.pc t) ∨ (C.pc t ≠ m.idle ∧ A ⟨s', upd C.pc t p'⟩))
    (hs : MSteps m ok C₀ h C) (hP : Q (C.pc t)) :
    ∃ h₁ C₁ h₂, h = h₁ ++ h₂ ∧ MSteps m ok C₀ h₁ C₁ ∧ MSteps m ok C₁ h₂ C ∧ A C₁ ∧ C₁.pc t ≠ m.idle ∧
      ∀ e ∈ h₂, e.tid ≠ t := by
  induction hs with
  | refl => exact absurd hP h0
  | @step h C t' ch s' p' e hx hs hok ih =>
    by_cases ht : t' = t
    · subst ht
      simp only [upd_self] at hP
      have hp' : p' ≠ m.idle := by rintro rfl; exact hidle hP
      rcases hQ _ _ _ _ _ _ hx hs hok hP with h1 | h1
      · obtain ⟨h₁, C₁, h₂, rfl, h3, h4, h5, h6, h7⟩ := ih h1
        refine ⟨h₁, C₁, h₂ ++ e.toList, by simp, h3, .step h4 hs hok, h5, h6, ?_⟩
        intro e' he'
        rcases List.mem_append.1 he' with he' | he'
        · exact h7 e' he'
        · cases e with
          | none => simp at he'
          | some e =>
            exfalso
            rcases (hlaw.event hs).1 with h | h
            · rw [h] at h1; exact hidle h1
            · exact hp' h
      · have he : e = none := by
          cases e with
          | none => rfl
          | some e =>
            rcases (hlaw.event hs).1 with h | h
            · exact absurd h h1.1
            · exact absurd h hp'
        subst he
        refine ⟨_, _, [], (List.append_nil _).symm, .step hx hs hok, ?_, h1.2, by simpa using hp', by simp⟩
        simpa using MSteps.refl (m := m) (ok := ok) _
    · simp only [upd_ne _ _ _ (Ne.symm ht)] at hP
      obtain ⟨h₁, C₁, h₂, rfl, h3, h4, h5, h6, h7⟩ := ih hP
      refine ⟨h₁, C₁, h₂ ++ e.toList, by simp, h3, .step h4 hs hok, h5, h6, ?_⟩
      intro e' he'
      rcases List.mem_append.1 he' with he' | he'
      · exact h7 e' he'
      · cases e with
        | none => simp at he'
        | some e =>
          simp at he'; subst he'
          rw [(hlaw.event hs).2]; exact ht

/-- The moment just before a response. -/
theorem MSteps.at_return (hlaw : m.Lawful) {i j r}
    (hs : MSteps m ok C₀ h C) (hr : Returned h i j r) :
    ∃ t o C₁, Pending (h.take j) t i o ∧ MSteps m ok C₀ (h.take j) C₁ ∧ C₁.pc t = m.ret r ∧
      MSteps m ok C₁ (h.drop j) C := by
  induction hs with
  | refl => have := hr.lt; simp at this
  | @step h C t' ch s' p' e hx hs hok ih =>
    cases e with
    | none =>
      simp only [Option.toList, List.append_nil] at hr ⊢
      obtain ⟨t, o, C₁, h1, h2, h3, h4⟩ := ih hr
      refine ⟨t, o, C₁, h1, h2, h3, ?_⟩
      simpa using h4.step hs hok
    | some e =>
      simp only [Option.toList] at hr ⊢
      by_cases hj : j < h.length
      · obtain ⟨t, o, C₁, h1, h2, h3, h4⟩ := ih ((Returned.snoc_old hj).1 hr)
        rw [List.take_append_of_le_length (Nat.le_of_lt hj), List.drop_append_of_le_length (Nat.le_of_lt hj)]
        exact ⟨t, o, C₁, h1, h2, h3, h4.step hs hok⟩
      · have hl := hr.lt
        simp at hl
        have hjl : j = h.length := by omega
        subst hjl
        obtain ⟨t, o, a1, a2, a3, a4⟩ := id hr
        simp at a3
        subst a3
        obtain ⟨_, _, o', hp⟩ := hr.snoc_new (by simp)
        refine ⟨t, o', C, by simpa using hp, by simpa using hx, ?_, ?_⟩
        · rcases hlaw _ _ _ _ _ _ _ hs with ⟨_, o, ho⟩ | ⟨r', h1, _, h3⟩
          · simp at ho
          · simp at h3; obtain ⟨rfl, rfl⟩ := h3; exact h1
        · have := (MSteps.refl (m := m) (ok := ok) C).step hs hok
          simpa using this

/-- If, whenever `t` is about to return `r`, something held at an earlier moment of the same call, then it held
between the call and the return. -/
theorem MSteps.moment_of (hlaw : m.Lawful) (A : Nat → MConf S P → Prop) {r}
    (hA : ∀ h C t, MSteps m ok C₀ h C → C.pc t = m.ret r →
      ∃ h₁ C₁ h₂, h = h₁ ++ h₂ ∧ MSteps m ok C₀ h₁ C₁ ∧ MSteps m ok C₁ h₂ C ∧ A t C₁ ∧ C₁.pc t ≠ m.idle ∧
        ∀ e ∈ h₂, e.tid ≠ t)
    {i j} (hs : MSteps m ok C₀ h C) (hr : Returned h i j r) :
    ∃ t o k C₁, h[i]? = some (.inv t o) ∧ i < k ∧ k ≤ j ∧ MSteps m ok C₀ (h.take k) C₁ ∧
      MSteps m ok C₁ (h.drop k) C ∧ A t C₁ := by
  obtain ⟨t, o, C₁, h1, h2, h3, h4⟩ := hs.at_return hlaw hr
  obtain ⟨h₁, C₂, h₂, he, h5, h6, h7, _, h9⟩ := hA _ _ _ h2 h3
  have hjl := hr.lt
  have hlen : h₁.length + h₂.length = j := by
    have := congrArg List.length he
    simp at this; omega
  have hi1 : (h.take j)[i]? = some (.inv t o) := h1.1
  have hik : i < h₁.length := by
    refine Classical.byContradiction fun hh => ?_
    rw [he, List.getElem?_append_right (by omega)] at hi1
    exact h9 _ (List.mem_of_getElem? hi1) rfl
  have htk : h.take h₁.length = h₁ := by
    have : (h.take j).take h₁.length = h₁ := by rw [he]; simp
    rwa [List.take_take, Nat.min_eq_left (by omega)] at this
  have hdk : h.drop h₁.length = h₂ ++ h.drop j := by
    have h10 : h = h₁ ++ (h₂ ++ h.drop j) := by
      rw [← List.append_assoc, ← he]; simp
    conv => lhs; rw [h10]
    simp
  refine ⟨t, o, h₁.length, C₂, ?_, hik, by omega, by rw [htk]; exact h5, ?_, h7⟩
  · rw [List.getElem?_take_of_lt (by omega)] at hi1; exact hi1
  · rw [hdk]; exact h6.trans h4

/-- A condition on the PC with which a call returns was established during the call. -/
theorem MSteps.moment (hlaw : m.Lawful) (Q : P → Prop)
    (A : Nat → MConf S P → Prop) (hidle : ¬ Q m.idle) (h0 : ∀ t, ¬ Q (C₀.pc t))
    (hQ : ∀ h C t ch s' p' e, MSteps m ok C₀ h C →
      m.step t C.s (C.pc t) ch = some (s', p', e) →
      ok C.s (C.pc t) ch → Q p' → Q (C.pc t) ∨ (C.pc t ≠ m.idle ∧ A t ⟨s', upd C.pc t p'⟩))
    {i j r} (hs : MSteps m ok C₀ h C) (hr : Returned h i j r) (hP : Q (m.ret r)) :
    ∃ t o k C₁, h[i]? = some (.inv t o) ∧ i < k ∧ k ≤ j ∧ MSteps m ok C₀ (h.take k) C₁ ∧
      MSteps m ok C₁ (h.drop k) C ∧ A t C₁ :=
  hs.moment_of hlaw A (fun _ _ t hx hp =>
    hx.origin hlaw (t := t) Q (A t) hidle (h0 t) (fun h C => hQ h C t) (by rw [hp]; exact hP)) hr

/-- While the PC of `t` is in the region `E`, either `J` holds or `A` held at some moment since `t` entered the
region. -/
theorem MSteps.track (hlaw : m.Lawful) {t : Nat} (E : P → Prop) (J A : MConf S P → Prop) (hidle : ¬ E m.idle)
    (h0 : ¬ E (C₀.pc t))
    (henter : ∀ h C ch s' p' e, MSteps m ok C₀ h C → m.step t C.s (C.pc t) ch = some (s', p', e) →
      ok C.s (C.pc t) ch → ¬ E (C.pc t) → E p' →
      C.pc t ≠ m.idle ∧ (A ⟨s', upd C.pc t p'⟩ ∨ J ⟨s', upd C.pc t p'⟩))
    (hkeep : ∀ h C t' ch s' p' e, MSteps m ok C₀ h C → m.step t' C.s (C.pc t') ch = some (s', p', e) →
      ok C.s (C.pc t') ch → E (C.pc t) → J C → E (upd C.pc t' p' t) →
      A ⟨s', upd C.pc t' p'⟩ ∨ J ⟨s', upd C.pc t' p'⟩)
    (hs : MSteps m ok C₀ h C) (hE : E (C.pc t)) :
    J C ∨ ∃ h₁ C₁ h₂, h = h₁ ++ h₂ ∧ MSteps m ok C₀ h₁ C₁ ∧ MSteps m ok C₁ h₂ C ∧ A C₁ ∧ C₁.pc t ≠ m.idle ∧
      ∀ e ∈ h₂, e.tid ≠ t := by
  induction hs with
  | refl => exact absurd hE h0
  | @step h C t' ch s' p' e hx hs hok ih =>
    have hnew : A ⟨s', upd C.pc t' p'⟩ → ∃ h₁ C₁ h₂, h ++ e.toList = h₁ ++ h₂ ∧ MSteps m ok C₀ h₁ C₁ ∧
        MSteps m ok C₁ h₂ ⟨s', upd C.pc t' p'⟩ ∧ A C₁ ∧ C₁.pc t ≠ m.idle ∧ ∀ e ∈ h₂, e.tid ≠ t := by
      intro hA
      refine ⟨_, _, [], (List.append_nil _).symm, .step hx hs hok, ?_, hA, ?_, by simp⟩
      · simpa using MSteps.refl (m := m) (ok := ok) _
      · intro h; simp only at h hE; rw [h] at hE; exact hidle hE
    by_cases hEC : E (C.pc t)
    · have hne : C.pc t ≠ m.idle := by intro h; rw [h] at hEC; exact hidle hEC
      rcases ih hEC with hJ | ⟨h₁, C₁, h₂, rfl, h3, h4, h5, h6, h7⟩
      · rcases hkeep _ _ _ _ _ _ _ hx hs hok hEC hJ hE with h | h
        · exact .inr (hnew h)
        · exact .inl h
      · refine .inr ⟨h₁, C₁, h₂ ++ e.toList, by simp, h3, .step h4 hs hok, h5, h6, ?_⟩
        intro e' he'
        rcases List.mem_append.1 he' with he' | he'
        · exact h7 e' he'
        · cases e with
          | none => simp at he'
          | some e =>
            simp at he'; subst he'
            obtain ⟨g1, g2⟩ := hlaw.event hs
            rw [g2]
            rintro rfl
            simp only [upd_self] at hE
            rcases g1 with g1 | g1
            · exact hne g1
            · rw [g1] at hE; exact hidle hE
    · by_cases ht : t' = t
      · subst ht
        simp only [upd_self] at hE
        obtain ⟨h1, h2⟩ := henter _ _ _ _ _ _ hx hs hok hEC hE
        rcases h2 with h2 | h2
        · exact .inr (hnew h2)
        · exact .inl h2
      · simp only [upd_ne _ _ _ (Ne.symm ht)] at hE
        exact absurd hE hEC

end Verif
