import Verif.Stack.Pool

/-!
# Stack: only exceptions make nodes unreachable (C59)
-/

namespace Verif.Stack
open Lin

variable {α : Type} {cfg : Cfg} {n : Nat} {h : History (Op α) (Ret α)} {C : Conf α}

/-- An exception was thrown: a call ended with one, or the functor given to a call may throw. -/
def Threw (h : History (Op α) (Ret α)) : Prop :=
  ∃ t, .res t .threw ∈ h ∨ .inv t (.pop true) ∈ h ∨ ∃ rev k, .inv t (.consumeAll rev (some k)) ∈ h

theorem Threw.append (hh : Threw h) (h' : History (Op α) (Ret α)) : Threw (h ++ h') := by
  obtain ⟨t, h1 | h1 | ⟨r, k, h1⟩⟩ := hh
  · exact ⟨t, .inl (by simp [h1])⟩
  · exact ⟨t, .inr (.inl (by simp [h1]))⟩
  · exact ⟨t, .inr (.inr ⟨r, k, by simp [h1]⟩)⟩

/-- The functor may throw. -/
def Risky : PC α → Prop
  | .pload thr | .ptest thr _ | .pcas thr _ _ | .papply thr _ => thr = true
  | .cload _ thr | .ctest _ thr _ | .ccas _ thr _ | .crev thr _ _ | .crevSet thr _ _ _ | .capply thr _ _ | .cread thr _ _ | .cdestroy thr _ _ _
  | .free (.cons thr _ _) _ _ => thr ≠ none
  | _ => False

/-- The call will end with an exception. -/
def Doomed : PC α → Prop
  | .ret .threw | .undo _ | .undoD _ _ | .free (.undo _) _ _ => True
  | _ => False

theorem Risky.step {t s s' p p' ch e} (hs : Trans (α := α) cfg t s p ch s' p' e) (hr : Risky p') : Risky p ∨ Threw e.toList := by
  cases hs with
  | @call o p h1 =>
    right
    cases o with
    | pop thr => simp [start] at h1; subst h1; cases (show thr = true from hr); exact ⟨t, .inr (.inl (by simp))⟩
    | consumeAll rev thr =>
      simp [start] at h1; subst h1
      cases thr with
      | none => exact absurd rfl hr
      | some k => exact ⟨t, .inr (.inr ⟨rev, k, by simp⟩)⟩
    | push b v => simp [start] at h1; subst h1; exact hr.elim
    | pushRange b vs =>
      simp only [start] at h1
      repeat' split at h1
      all_goals simp at h1
      all_goals subst h1; exact hr.elim
    | empty => simp [start] at h1; subst h1; exact hr.elim
    | reserve k =>
      simp only [start] at h1
      split at h1 <;> simp at h1
      subst h1; exact hr.elim
  | @allocNull b k => rcases k with _ | ⟨_, _ | ⟨_, _⟩, _, _⟩ <;> exact hr.elim
  | @allocBad b k => rcases k with _ | ⟨_, _ | ⟨_, _⟩, _, _⟩ <;> exact hr.elim
  | @constrThrow b k => rcases k with _ | ⟨_, _ | ⟨_, _⟩, _, _⟩ <;> exact hr.elim
  | @rlinkFirst b acc v rest => cases rest <;> exact hr.elim
  | @rlinkNext b acc top e v rest => cases rest <;> exact hr.elim
  | @freeMore k n d => cases k <;> first | exact hr.elim | exact .inl hr
  | @freeDone k n d => rcases k with _ | ⟨_, _, _ | _⟩ | _ | (_ | _) <;> first | exact hr.elim | exact .inl hr
  | @ccasOk rev => cases rev <;> exact .inl hr
  | _ => first | exact hr.elim | exact .inl hr

theorem Doomed.step {t s s' p p' ch e} (hs : Trans (α := α) cfg t s p ch s' p' e) (hd : Doomed p) (he : p' ≠ .err) : Doomed p' ∨ Threw e.toList := by
  cases hs with
  | @freeMore k n d => cases k <;> first | exact hd.elim | exact .inl trivial
  | @freeDone k n d => rcases k with _ | ⟨_, _, _ | _⟩ | _ | (_ | _) <;> first | exact hd.elim | exact .inl trivial
  | @ret r => cases r <;> first | exact hd.elim | exact .inr ⟨t, .inl (by simp)⟩
  | _ => first | exact hd.elim | exact .inl trivial | exact absurd rfl he

theorem leaky_step {t s s' p p' ch e} (hs : Trans (α := α) cfg t s p ch s' p' e) (hl : leaky p ch = true) : Risky p ∨ Doomed p' := by
  cases hs with
  | @constrThrow b k => rcases k with _ | ⟨_, _ | ⟨_, _⟩, _, _⟩ <;> exact .inr trivial
  | @papplyErr thr => cases thr with
    | true => exact .inl rfl
    | false => simp [leaky] at hl
  | papplyThrow => exact .inl rfl
  | capplyErr | capplyThrow | capply => left; simp only [Risky]; rintro rfl; simp [leaky] at hl
  | _ => simp [leaky] at hl

/-- **C59, C23.** If no call has ended with an exception, and no functor throws, then no node has been dropped, as soon as no call is in progress. -/
theorem dropped_reported {D} (hx : ExecD cfg n h C D) (hq : ∀ t, C.pc t = .idle) (hh : ¬ Threw h) (m : Nat) : ¬ D m := by
  have key : (∀ t, Risky (C.pc t) → Threw h) ∧ ((∃ m, D m) → Threw h ∨ ∃ t, Doomed (C.pc t)) := by
    clear hq hh
    induction hx with
    | init => exact ⟨fun t h => h.elim, fun ⟨_, h⟩ => h.elim⟩
    | @step h C D t ch s' p' e hx hs hok ih =>
      have ht := trans_of_tstep hs
      have hnr : p' ≠ .err := by
        have := stack_no_undefined_behaviour (hx.freshExec.step hs hok) t
        simpa using this
      obtain ⟨ih1, ih2⟩ := ih
      have r : ∀ u, Risky (C.pc u) → Threw (h ++ e.toList) := fun u hu => (ih1 u hu).append _
      refine ⟨fun u hu => ?_, ?_⟩
      · by_cases hut : u = t
        · subst hut
          simp only [upd_self] at hu
          rcases Risky.step ht hu with h1 | ⟨v, h1⟩
          · exact r _ h1
          · refine ⟨v, ?_⟩
            rcases h1 with h1 | h1 | ⟨a, b, h1⟩
            · exact .inl (by simp [h1])
            · exact .inr (.inl (by simp [h1]))
            · exact .inr (.inr ⟨a, b, by simp [h1]⟩)
        · simp only [upd_ne _ _ _ hut] at hu
          exact r u hu
      · have doom : ∀ u, Doomed (C.pc u) → Threw (h ++ e.toList) ∨ ∃ u, Doomed (upd C.pc t p' u) := by
          intro u hu
          by_cases hut : u = t
          · subst hut
            rcases Doomed.step ht hu hnr with h1 | ⟨v, h1⟩
            · exact .inr ⟨u, by simpa using h1⟩
            · left
              refine ⟨v, ?_⟩
              rcases h1 with h1 | h1 | ⟨a, b, h1⟩
              · exact .inl (by simp [h1])
              · exact .inr (.inl (by simp [h1]))
              · exact .inr (.inr ⟨a, b, by simp [h1]⟩)
          · exact .inr ⟨u, by simpa [upd_ne _ _ _ hut] using hu⟩
        rintro ⟨m, hm | ⟨hl, -⟩⟩
        · rcases ih2 ⟨m, hm⟩ with h1 | ⟨u, h1⟩
          · exact .inl (h1.append _)
          · exact doom u h1
        · rcases leaky_step ht hl with h1 | h1
          · exact .inl (r t h1)
          · exact .inr ⟨t, by simpa using h1⟩
  intro hm
  rcases key.2 ⟨m, hm⟩ with h1 | ⟨t, h1⟩
  · exact hh h1
  · rw [hq t] at h1; exact h1

end Verif.Stack
