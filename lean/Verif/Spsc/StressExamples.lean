import Verif.Spsc.Stress
import Verif.Spsc.TextExamples
import Verif.UserRun

/-!
# The stress tests of `spsc_queue`: concrete executions, and what does not hold (C66)

No further code of /repo is modelled here.
-/

namespace Verif.Spsc.Code.StressEx
open Lin Text TextEx Stress
open User.Run (steps)

abbrev Ch := TChoice (Spsc.Choice Nat) (Op Nat)

/-- Thread `t` makes a call, with these choices. -/
def call (t : Nat) (l : List Nat) : List (Nat × User.Choice Ch) := (t, .go true) :: l.map fun i => (t, .inner (.act (.go i)))

theorem tau_ok (s : St Nat) (p) : Program.ok (L := Loc Nat) (Ch := Spsc.Choice Nat) (R := Ret Nat) okCall s p .tau := by unfold Program.ok; split <;> trivial

/-- `spsc_queue_tester`: three elements, the generator begins at 10, a queue for two elements. -/
def single : Plan := ⟨none, 3, 10⟩

/-- The third `push` finds the queue full. The reader loads `true` from `running` although `false` has been stored; having loaded `false` it takes what is left. -/
def singleSched : List (Nat × User.Choice Ch) :=
  steps 0 4 ++ call 0 [0, 0, 0, 0] ++ steps 0 5 ++ call 0 [1, 0, 0, 0] ++ steps 0 5 ++ call 0 [2, 0] ++ call 1 [1, 0, 0, 0, 0] ++ steps 1 4 ++ [(1, .go false)] ++
  call 0 [2, 1, 0, 0] ++ steps 0 4 ++ call 1 [1, 1] ++ [(1, .go false)] ++ call 1 [1, 1] ++ steps 1 1 ++ call 1 [3, 1, 0, 0, 0] ++ steps 1 4 ++
  call 1 [3, 2, 0, 0, 0] ++ steps 1 4 ++ call 1 [3, 3] ++ steps 1 1 ++ steps 2 5

def singleHist : History (Op Nat) (Ret Nat) :=
  [.inv 0 (.push 11), .res 0 (.pushed true), .inv 0 (.push 12), .res 0 (.pushed true), .inv 0 (.push 13), .res 0 (.pushed false),
   .inv 1 .pop, .res 1 (.popped (some 11)), .inv 0 (.push 13), .res 0 (.pushed true), .inv 1 .pop, .res 1 (.popped none), .inv 1 .pop, .res 1 (.popped none),
   .inv 1 .pop, .res 1 (.popped (some 12)), .inv 1 .pop, .res 1 (.popped (some 13)), .inv 1 .pop, .res 1 (.popped none)]

set_option maxRecDepth 20000 in
/-- C66: `spsc_queue_tester` to its end -/
theorem single_runs : ∃ h C, StressRuns cfg2 false single h C ∧ h = singleHist ∧ C.pc 2 = .at .passed :=
  User.Run.shows (okB := Program.okB okc) (tau := .tau) (fun _ _ _ => okB_spec okc_spec) tau_ok singleSched (f := id) rfl

example : ∃ h C, StressRuns cfg2 false single h C ∧ h = singleHist ∧ delivered h = [11, 12, 13] ∧ C.s.2.received = 3 ∧ C.s.2.working_set = [] := by
  obtain ⟨h, C, h1, h2, h3⟩ := single_runs
  obtain ⟨h4, -, h5, h6, -⟩ := spsc_stress_passed cfg2_holds (by decide) h1 h3 trivial
  exact ⟨h, C, h1, h2, h6, h4, h5⟩

/-- `spsc_queue_tester_buffering`: buffers of three elements, a queue for two elements. -/
def many : Plan := ⟨some 3, 3, 0⟩

/-- The first `push` takes two elements of the buffer, the second one the last. The reader loads `false` from `running` after it has got elements. -/
def manySched : List (Nat × User.Choice Ch) :=
  steps 0 8 ++ call 0 [0, 0, 0, 0, 0] ++ call 0 [1, 0] ++ call 1 [1, 0, 0, 0, 0, 0, 0] ++ steps 1 5 ++ call 0 [1, 1, 0, 0] ++ steps 0 4 ++ steps 1 1 ++
  call 1 [2, 1, 0, 0, 0] ++ steps 1 5 ++ call 1 [2, 2] ++ steps 1 1 ++ call 1 [2, 2] ++ steps 1 1 ++ steps 2 5

def manyHist : History (Op Nat) (Ret Nat) :=
  [.inv 0 (.pushMany [1, 2, 3]), .res 0 (.pushedMany 2), .inv 0 (.pushMany [3]), .res 0 (.pushedMany 0),
   .inv 1 (.popMany true (some 3)), .res 1 (.poppedMany [1, 2]), .inv 0 (.pushMany [3]), .res 0 (.pushedMany 1),
   .inv 1 (.popMany true (some 3)), .res 1 (.poppedMany [3]), .inv 1 (.popMany true (some 3)), .res 1 (.poppedMany []),
   .inv 1 (.popMany true (some 3)), .res 1 (.poppedMany [])]

set_option maxRecDepth 20000 in
/-- C66: `spsc_queue_tester_buffering` to its end -/
theorem many_runs : ∃ h C, StressRuns cfg2 false many h C ∧ h = manyHist ∧ C.pc 2 = .at .passed :=
  User.Run.shows (okB := Program.okB okc) (tau := .tau) (fun _ _ _ => okB_spec okc_spec) tau_ok manySched (f := id) rfl

example : ∃ h C, StressRuns cfg2 false many h C ∧ h = manyHist ∧ delivered h = [1, 2, 3] ∧ C.s.2.received = 3 ∧ C.s.2.working_set = [] := by
  obtain ⟨h, C, h1, h2, h3⟩ := many_runs
  obtain ⟨h4, -, h5, h6, -⟩ := spsc_stress_passed cfg2_holds (by decide) h1 h3 trivial
  exact ⟨h, C, h1, h2, h6, h4, h5⟩

/-- The reader has read `false` from `running` and finds the queue empty. -/
def relaxedSched : List (Nat × User.Choice Ch) :=
  steps 0 4 ++ call 0 [0, 0, 0, 0] ++ steps 0 4 ++ call 1 [0, 0] ++ steps 1 1 ++ call 1 [0, 0] ++ steps 1 1 ++ steps 2 3

set_option maxRecDepth 20000 in
/-- **C66 (what does not hold).** With relaxed accesses to `running` the test of one element fails: the reader may leave without it. -/
theorem spsc_stress_relaxed : ∃ h C, User.Runs (program Nat cfg2 false).mach (scriptWith [] ⟨none, 1, 0⟩) .absent (Program.ok okCall) St.initial (Vars.init ⟨none, 1, 0⟩)
    Stress.start h C ∧ C.pc 2 = .at .failed := by
  obtain ⟨h, C, h1, _, h2⟩ := User.Run.shows (m := (program Nat cfg2 false).mach) (c := scriptWith [] ⟨none, 1, 0⟩) (k₀ := .absent) (s := St.initial)
    (g := Vars.init ⟨none, 1, 0⟩) (start := Stress.start) (ok := Program.ok okCall) (okB := Program.okB okc) (tau := .tau)
    (fun _ _ _ => okB_spec okc_spec) tau_ok relaxedSched (f := fun _ => ()) (q := fun C => C.pc 2) (b := .at .failed) rfl
  exact ⟨h, C, h1, h2⟩

end Verif.Spsc.Code.StressEx
