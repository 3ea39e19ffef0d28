import Verif.Stack.Delay
import Verif.Stack.Forever

/-! Concrete cases for C74. That the assumption on changes is needed is shown in `Stack/Starve.lean`: a call of `push` or `pop` does not return as long as
other calls go on changing the stack. -/

namespace Verif.Stack.Code.TextEx
open Text WordEx

set_option maxRecDepth 8000 in
theorem emptyCall_events (i : Nat) (hi : i < 11) : (∀ t o, event emptyCall i = some (.inv t o) → o.plain = true) ∧
    ∀ ev, event emptyCall i = some ev → changed ev = false :=
  match i, hi with
  | 0, _ | 1, _ | 2, _ | 3, _ | 4, _ | 5, _ | 6, _ | 7, _ | 8, _ | 9, _ | 10, _ => by
    constructor
    · intro t o h; first | (cases h; done) | (cases h; rfl)
    · intro ev h; first | (cases h; done) | (cases h; rfl)

set_option maxRecDepth 8000 in
/-- One thread calls `empty` over and over: the assumptions of C74 hold. -/
theorem empty_calm : ∃ C t ch e, Forever (program cRep Nat).mach (Program.ok fun _ o => ∀ b, o ≠ .pushRange b []) 1 C t ch e ∧ C 0 = start cRep 1 ∧
    (∀ i t o, e i = some (.inv t o) → o.plain = true) ∧ (∀ i, Text.spurious isSpur ((C i).pc (t i)) (ch i) = false) ∧
    (∀ i ev, e i = some ev → changed ev = false) ∧ ∀ i, t i = 0 := by
  obtain ⟨C, t, ch, e, h1, h2, h3⟩ := forever_lasso (m := (program cRep Nat).mach) (ok := Program.ok fun _ o => ∀ b, o ≠ .pushRange b [])
    (T := 1) (C₀ := start cRep 1) (t := 0) (n := 11) (l := 0) (by decide) (by decide) (fun i => solo (emptyCall.take i))
    (fun i => emptyCall.getD i .tau) (event emptyCall) rfl rfl (fun i hi => okB_spec okc_spec (emptyCall_ok i hi)) emptyCall_steps
  refine ⟨C, t, ch, e, h1, h2, fun j => ?_, fun j => ?_, fun j => ?_, fun j => ?_⟩
  · obtain ⟨i, hi, -, -, h4⟩ := h3 j; rw [h4]; exact (emptyCall_events i hi).1
  · obtain ⟨i, hi, -, h4, -⟩ := h3 j; rw [h4]; exact quiet _ i hi
  · obtain ⟨i, hi, -, -, h4⟩ := h3 j; rw [h4]; exact (emptyCall_events i hi).2
  · have := h1.thread j; omega

/-- `stack_text_calls_return` -/
example : ∃ C : Nat → TConf cRep Nat, ∀ i, ∃ j, i ≤ j ∧ (C j).pc 0 = .idle := by
  obtain ⟨C, t, ch, e, h1, h2, h3, h4, h5, h6⟩ := empty_calm
  exact ⟨C, stack_text_calls_return cRep_faithful (n := 1) (by decide) h1 h2 h3 ⟨0, fun i _ => h4 i⟩ ⟨0, fun i _ => h5 i⟩ fun i => ⟨i, Nat.le_refl _, h6 i⟩⟩

/-- `stack_text_delay`: `n` steps of the same thread, none of them a spurious failure, need at least `(n - 248) / 1054` calls. -/
example (n : Nat) : ∃ h C, Own (program cRep Nat).mach (Program.ok fun _ o => ∀ b, o ≠ .pushRange b []) (Text.spurious isSpur) 1 0 (start cRep 1) h C n 0 ∧
    n ≤ 62 * (17 * h.countP (callOf 0) + 4) := by
  obtain ⟨C, t, ch, e, h1, h2, h3, h4, h5, h6⟩ := empty_calm
  obtain ⟨k, f, h7, h8, h9, -⟩ := h1.own (N := 0) (fun i _ => h4 i) 0 n
  have h10 : ∀ n, stepsOf t 0 n = n := by
    intro n
    induction n with
    | zero => rfl
    | succ n ih => simp [stepsOf, h6, ih]
  have h10 := h10 n
  obtain rfl : f = 0 := by omega
  obtain rfl : k = n := by omega
  rw [h2] at h7
  refine ⟨_, _, h7, ?_⟩
  have h11 := stack_text_delay cRep_faithful (n := 1) (by decide) h7 fun t o hm => by obtain ⟨j, hj⟩ := mem_firstEvents hm; exact h3 j t o hj
  have h12 := countP_bound (N := 0) (fun i _ => h5 i) k
  omega

end Verif.Stack.Code.TextEx
