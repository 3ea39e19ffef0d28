import Verif.Freelist.Delay
import Verif.Freelist.ProgressExamples

/-! Concrete cases for C78. That the assumption on spurious failures is needed is shown by `freelist_spurious_forever` (C70). -/

namespace Verif.Freelist.Ex
open Lin Text
open Stack.WordEx (cRep)

set_option maxRecDepth 8000 in
theorem nullCall_events (i : Nat) (hi : i < 22) : ∀ ev, event 0 nullCall i = some ev → changed ev = false :=
  match i, hi with
  | 0, _ | 1, _ | 2, _ | 3, _ | 4, _ | 5, _ | 6, _ | 7, _ | 8, _ | 9, _ | 10, _ | 11, _ | 12, _ | 13, _ | 14, _ | 15, _ | 16, _ | 17, _ | 18, _ | 19, _ | 20, _ | 21, _ => by
    intro ev h; first | (cases h; done) | (cases h; rfl)
  | _ + 22, h => absurd h (by omega)

set_option maxRecDepth 8000 in
/-- One thread calls `construct` over and over, and there is no node: the assumptions of C78 hold. -/
theorem null_calm : ∃ C t ch e, Forever (program cRep Nat).mach (Program.ok fun _ _ => True) 1 C t ch e ∧ C 0 = start cRep 0 ∧
    (∀ j, Text.spurious isSpur ((C j).pc (t j)) (ch j) = false) ∧ (∀ i ev, e i = some ev → changed ev = false) ∧ ∀ i, t i = 0 := by
  obtain ⟨C, t, ch, e, h1, h2, h3⟩ := forever_lasso (m := (program cRep Nat).mach) (ok := Program.ok fun _ _ => True)
    (T := 1) (C₀ := start cRep 0) (t := 0) (n := 22) (l := 0) (by decide) (by decide) (fun i => solo 0 (nullCall.take i))
    (fun i => nullCall.getD i .tau) (event 0 nullCall) rfl rfl (fun i hi => solo_ok 0 nullCall i rfl hi) nullCall_steps
  refine ⟨C, t, ch, e, h1, h2, fun j => ?_, fun j => ?_, fun j => ?_⟩
  · obtain ⟨i, hi, -, h4, -⟩ := h3 j; rw [h4]; exact quiet _ i hi
  · obtain ⟨i, hi, -, -, h4⟩ := h3 j; rw [h4]; exact nullCall_events i hi
  · have := h1.thread j; omega

/-- `freelist_calls_return` -/
example : ∃ C : Nat → TConf cRep Nat, ∀ i, ∃ j, i ≤ j ∧ (C j).pc 0 = .idle := by
  obtain ⟨C, t, ch, e, h1, h2, h3, h4, h5⟩ := null_calm
  exact ⟨C, freelist_calls_return (n := 0) h1 h2 ⟨0, fun i _ => h3 i⟩ ⟨0, fun i _ => h4 i⟩ fun i => ⟨i, Nat.le_refl _, h5 i⟩⟩

/-- `freelist_delay`: `n` steps of the same thread, none of them a spurious failure, need at least `(n - 84) / 252` calls. -/
example (n : Nat) : ∃ h C, Own (program cRep Nat).mach (Program.ok fun _ _ => True) (Text.spurious isSpur) 1 0 (start cRep 0) h C n 0 ∧
    n ≤ 42 * (6 * h.countP (callOf 0) + 2) := by
  obtain ⟨C, t, ch, e, h1, h2, h4, h5, h6⟩ := null_calm
  obtain ⟨k, f, h7, h8, h9, -⟩ := h1.own (N := 0) (fun i _ => h4 i) 0 n
  have h10 : ∀ n, stepsOf t 0 n = n := by
    intro n
    induction n with
    | zero => rfl
    | succ n ih => simp [stepsOf, h6, ih]
  have h10 := h10 n
  obtain rfl : f = 0 := by omega
  obtain rfl : k = n := by omega
  rw [h2] at h7
  refine ⟨_, _, h7, ?_⟩
  have h11 := freelist_delay (n := 0) h7
  have h12 := countP_bound (N := 0) (fun i _ => h5 i) k
  omega

end Verif.Freelist.Ex
