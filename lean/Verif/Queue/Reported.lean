import Verif.Queue.Pool

/-!
# Queue: only exceptions make nodes unreachable (C59)
-/

namespace Verif.Queue
open Lin

variable {α : Type} {cfg : Cfg} {n : Nat} {h : History (Op α) (Ret α)} {C : Conf α}

/-- **C59, C23.** If no call has ended with an exception, then no node has been dropped, as soon as no call is in progress. -/
theorem dropped_reported {D} (hx : ExecD cfg n h C D) (hq : ∀ t, C.pc t = .idle) (hh : ∀ t, .res t .threw ∉ h) (m : Nat) : ¬ D m := by
  have key : (∃ m, D m) → (∃ t, .res t .threw ∈ h) ∨ ∃ t, C.pc t = .ret .threw := by
    clear hq hh
    induction hx with
    | init => exact fun ⟨_, h⟩ => h.elim
    | @step h C D t ch s' p' e hx hs hok ih =>
      rintro ⟨m, hm | ⟨hl, -⟩⟩
      · rcases ih ⟨m, hm⟩ with ⟨u, h1⟩ | ⟨u, h1⟩
        · exact .inl ⟨u, by simp [h1]⟩
        · by_cases hut : u = t
          · subst hut
            have ht := trans_of_tstep hs
            rw [h1] at ht
            generalize hp : (PC.ret Ret.threw : PC α) = p at ht
            cases ht <;> cases hp
            exact .inl ⟨u, by simp⟩
          · exact .inr ⟨u, by simpa [upd_ne _ _ _ hut] using h1⟩
      · right
        refine ⟨t, ?_⟩
        have ht := trans_of_tstep hs
        generalize C.pc t = p at ht hl
        simp only [upd_self]
        cases ht <;> first | rfl | simp [leaky] at hl
  intro hm
  rcases key ⟨m, hm⟩ with ⟨t, h1⟩ | ⟨t, h1⟩
  · exact hh t h1
  · rw [hq t] at h1; cases h1

end Verif.Queue
