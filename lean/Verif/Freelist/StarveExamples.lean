import Verif.Freelist.Starve
import Verif.Freelist.Examples

/-! Concrete cases for C79. -/

namespace Verif.Freelist.Ex
open Lin Text
open Stack.WordEx (cRep)

/-- `construct`, two nodes -/
example (N : Nat) : ∃ h' C' k, N ≤ k ∧ Watched (program cRep Nat).mach (okWith (fun _ _ => True) Plain) 0 (start cRep 2)
    (.inv 0 (.construct true 5 false) :: h') C' k ∧ By 1 h' :=
  freelist_text_construct_starves cRep_faithful (by decide) (by decide) (by decide) (by decide) true 5 false N

/-- `destruct`: thread 0 has taken node 1 and gives it back, while thread 1 takes and gives back node 0 -/
example (N : Nat) : ∃ h' C' k, N ≤ k ∧ Watched (program cRep Nat).mach (okWith (fun _ _ => True) Plain) 0 (start cRep 2)
    ([.inv 0 (.construct true 5 false), .res 0 (.node (some 1))] ++ .inv 0 (.destruct 1) :: h') C' k ∧ By 1 h' := by
  have h1 := construct_plain (u := 0) (s := SMem.initial cRep 2) cRep_faithful.pos true 5 (initial_top cRep_faithful (by decide) (by decide)) rfl
  have h2 := Watched.alone (C := ⟨SMem.initial cRep 2, fun _ => .idle⟩) h1 rfl rfl
  exact freelist_text_not_wait_free cRep_faithful (by decide) (by decide) h2 (disciplinedB_spec rfl) (by decide) (by simp) (by simp) (by decide)
    (.destruct 1) rfl 7 N

end Verif.Freelist.Ex
