import Verif.ExampleWeakExamples
import Verif.ExampleExamples
import Verif.Queue.Stress
import Verif.Stack.Stress
import Verif.UserRun

/-!
# The stress tests: concrete executions, and what does not hold (C65)

No further code of /repo is modelled here.
-/

namespace Verif.Stack.Code.StressEx
open Lin Text WordEx TextEx
open User.Run (steps made)

abbrev Ch := TChoice (SChoice cRep.K (Op Nat) Nat) (Op Nat)

/-- Thread `t` makes a call, with `k` accesses. -/
def call (t k : Nat) : List (Nat × User.Choice Ch) := (t, .go true) :: List.replicate k (t, .inner (.act .go))

/-- One writer, one reader, two elements, one node. The second `bounded_push` first finds no node. The reader takes both elements, does not read 1 from `writers_finished`, then
does, and finds the stack empty again. -/
def sched : List (Nat × User.Choice Ch) :=
  steps 0 3 ++ call 0 7 ++ steps 0 4 ++ call 0 1 ++ call 1 8 ++ steps 1 3 ++ call 0 7 ++ steps 0 3 ++ call 1 8 ++ steps 1 3 ++ call 1 1 ++ [(1, .go false)] ++
  call 1 1 ++ steps 1 1 ++ call 1 1 ++ steps 1 1 ++ steps 0 1 ++ steps 2 4

def hist : History (Op Nat) (Ret Nat) :=
  [.inv 0 (.push true 1), .res 0 (.pushed true), .inv 0 (.push true 2), .res 0 (.pushed false), .inv 1 (.pop false), .res 1 (.popped (some 1)),
   .inv 0 (.push true 2), .res 0 (.pushed true), .inv 1 (.pop false), .res 1 (.popped (some 2)), .inv 1 (.pop false), .res 1 (.popped none),
   .inv 1 (.pop false), .res 1 (.popped none), .inv 1 (.pop false), .res 1 (.popped none)]

set_option maxRecDepth 20000 in
/-- C65: the stress test to its end -/
theorem runs : ∃ h C, StressRuns cRep 1 true 1 1 2 h C ∧ h = hist ∧ C.pc 2 = .at .passed :=
  User.Run.shows (okB := Program.okB okc) (tau := .tau) (fun _ _ _ => okB_spec okc_spec) (tau_ok _) sched (f := id) rfl

example : ∃ h C, StressRuns cRep 1 true 1 1 2 h C ∧ h = hist ∧ (delivered h).Perm [1, 2] ∧ C.s.2.data = [] ∧ HoldsW cRep C.s.1 [] := by
  obtain ⟨h, C, h1, h2, h3⟩ := runs
  obtain ⟨h4, h5⟩ := stack_stress_passed cRep_faithful (by decide) (by decide) h1 h3 trivial
  exact ⟨h, C, h1, h2, h4.values, h4.data, h5⟩

/-- One writer, one element; the readers, of which there are none, are joined. -/
def noReader : List (Nat × User.Choice Ch) := steps 0 3 ++ call 0 7 ++ steps 0 4 ++ steps 1 3

set_option maxRecDepth 20000 in
/-- **C65 (what does not hold).** Without reader the stress test fails. -/
theorem stack_stress_without_reader : ∃ h C, StressRuns cRep 1 true 1 0 1 h C ∧ C.pc 1 = .at .failed := by
  obtain ⟨h, C, h1, _, h2⟩ := User.Run.shows (m := (program cRep Nat).mach) (c := Stress.script (stressSetup cRep true 1 0 1)) (k₀ := .absent) (s := (SConf.initial cRep 1).s)
    (g := .init) (start := Stress.start (stressSetup cRep true 1 0 1)) (ok := Program.ok fun _ o => ∀ b, o ≠ .pushRange b []) (okB := Program.okB okc) (tau := .tau)
    (fun _ _ _ => okB_spec okc_spec) (tau_ok _) noReader (f := fun _ => ()) (q := fun C => C.pc 1) (b := .at .failed) rfl
  exact ⟨h, C, h1, h2⟩

end Verif.Stack.Code.StressEx

namespace Verif.Stack.Code.RaStressEx
open Lin Text TextEx RaEx
open Stack.WordEx (cRep)
open RaExampleEx (pushNew)
open User.Run (steps made)

/-- One writer, two readers, two elements. Reader 1 does not see the first `push`, reads 0 from `writers_finished`, and does not see the `push`es after the writer has left
either; having read 1 it takes both elements. -/
def sched : List (Nat × User.Choice (RCh cRep)) :=
  steps 0 3 ++ made (push 0 1 0 0) ++ made (popNone 1 0) ++ [(1, .go false)] ++ steps 0 4 ++ made (pushNew 0 2 1 1) ++ steps 0 4 ++ made (popNone 1 0) ++ steps 1 1 ++
  made (pop 1 2 1) ++ steps 1 3 ++ made (pop 1 3 2) ++ steps 1 3 ++ made (popNone 1 4) ++ steps 1 1 ++ made (popNone 2 0) ++ steps 2 1 ++ made (popNone 2 4) ++ steps 2 1 ++
  steps 3 4

def hist : History (Op Nat) (Ret Nat) :=
  [.inv 0 (.push false 1), .res 0 (.pushed true), .inv 1 (.pop false), .res 1 (.popped none), .inv 0 (.push false 2), .res 0 (.pushed true),
   .inv 1 (.pop false), .res 1 (.popped none), .inv 1 (.pop false), .res 1 (.popped (some 2)), .inv 1 (.pop false), .res 1 (.popped (some 1)),
   .inv 1 (.pop false), .res 1 (.popped none), .inv 2 (.pop false), .res 2 (.popped none), .inv 2 (.pop false), .res 2 (.popped none)]

set_option maxRecDepth 20000 in
/-- C65: the stress test to its end -/
theorem runs : ∃ h C, RaStressRuns cRep 1 false 1 2 2 h C ∧ bare h = hist ∧ C.pc 3 = .at .passed :=
  User.Run.shows (okB := okB) (tau := .tau) (fun _ _ _ => RaEx.okB_spec) RaEx.tau_ok sched (f := bare) rfl

example : ∃ h C, RaStressRuns cRep 1 false 1 2 2 h C ∧ bare h = hist ∧ (delivered (bare h)).Perm [1, 2] ∧ C.s.2.data = [] ∧ HoldsW cRep C.s.1.s [] := by
  obtain ⟨h, C, h1, h2, h3⟩ := runs
  obtain ⟨h4, h5⟩ := stack_ra_stress_passed cRep_faithful (by decide) (by decide) h1 h3 trivial
  exact ⟨h, C, h1, h2, h4.values, h4.data, h5⟩

/-- The program with `writers_finished.load( memory_order_relaxed )` in test_common.hpp:104: one writer, one reader, one element. -/
def relaxedSetup : Stress.Setup (RCh cRep) (Ret Nat × View Stack.Loc) := { raStressSetup cRep false 1 1 1 with see := [] }

/-- The reader has read 1 from `writers_finished` and finds the stack empty. -/
def relaxedSched : List (Nat × User.Choice (RCh cRep)) :=
  steps 0 3 ++ made (push 0 1 0 0) ++ steps 0 4 ++ made (popNone 1 0) ++ steps 1 1 ++ made (popNone 1 0) ++ steps 1 1 ++ steps 2 3

set_option maxRecDepth 20000 in
/-- **C65 (what does not hold).** If the load of `writers_finished` is relaxed, the stress test may fail. -/
theorem stack_ra_stress_relaxed : ∃ h C, Stress.Runs (raMach (program cRep Nat)) relaxedSetup raOk (RaConf.initial cRep Nat 1).s h C ∧ C.pc 2 = .at .failed := by
  obtain ⟨h, C, h1, _, h2⟩ := User.Run.shows (m := raMach (program cRep Nat)) (c := Stress.script relaxedSetup) (k₀ := .absent) (s := (RaConf.initial cRep Nat 1).s)
    (g := .init) (start := Stress.start relaxedSetup) (ok := raOk) (okB := okB) (tau := .tau) (fun _ _ _ => RaEx.okB_spec) RaEx.tau_ok relaxedSched
    (f := fun _ => ()) (q := fun C => C.pc 2) (b := .at .failed) rfl
  exact ⟨h, C, h1, h2⟩

end Verif.Stack.Code.RaStressEx

namespace Verif.Queue.Code.StressEx
open Lin Text WordEx TextEx
open Stack.WordEx (cRep)
open User.Run (steps made)

abbrev Ch := TChoice (SChoice cRep.K (Op Nat) Nat) (Op Nat)

/-- Thread `t` makes a call, with `k` accesses. -/
def call (t k : Nat) : List (Nat × User.Choice Ch) := (t, .go true) :: List.replicate k (t, .inner (.act .go))

/-- One writer, one reader, two elements, room for one. The second `bounded_push` first finds no room. The reader takes both elements, does not read 1 from `writers_finished`, then
does, and finds the queue empty again. -/
def sched : List (Nat × User.Choice Ch) :=
  steps 0 3 ++ call 0 11 ++ steps 0 4 ++ call 0 1 ++ call 1 10 ++ steps 1 3 ++ call 0 11 ++ steps 0 3 ++ call 1 10 ++ steps 1 3 ++ call 1 4 ++ [(1, .go false)] ++
  call 1 4 ++ steps 1 1 ++ call 1 4 ++ steps 1 1 ++ steps 0 1 ++ steps 2 4

def hist : History (Op Nat) (Ret Nat) :=
  [.inv 0 (.push true 1), .res 0 (.pushed true), .inv 0 (.push true 2), .res 0 (.pushed false), .inv 1 .pop, .res 1 (.popped (some 1)),
   .inv 0 (.push true 2), .res 0 (.pushed true), .inv 1 .pop, .res 1 (.popped (some 2)), .inv 1 .pop, .res 1 (.popped none),
   .inv 1 .pop, .res 1 (.popped none), .inv 1 .pop, .res 1 (.popped none)]

set_option maxRecDepth 20000 in
/-- C65: the stress test to its end -/
theorem runs : ∃ h C, StressRuns cRep 1 true 1 1 2 h C ∧ h = hist ∧ C.pc 2 = .at .passed :=
  User.Run.shows (okB := Program.okB okc) (tau := .tau) (fun _ _ _ => okB_spec okc_spec) (tau_ok _) sched (f := id) rfl

example : ∃ h C, StressRuns cRep 1 true 1 1 2 h C ∧ h = hist ∧ (delivered h).Perm [1, 2] ∧ C.s.2.data = [] ∧ HoldsW cRep C.s.1 [] := by
  obtain ⟨h, C, h1, h2, h3⟩ := runs
  obtain ⟨h4, h5⟩ := queue_stress_passed cRep_faithful (by decide) (by decide) h1 h3 trivial
  exact ⟨h, C, h1, h2, h4.values, h4.data, h5⟩

/-- One writer, one element; the readers, of which there are none, are joined. -/
def noReader : List (Nat × User.Choice Ch) := steps 0 3 ++ call 0 11 ++ steps 0 4 ++ steps 1 3

set_option maxRecDepth 20000 in
/-- **C65 (what does not hold).** Without reader the stress test fails. -/
theorem queue_stress_without_reader : ∃ h C, StressRuns cRep 1 true 1 0 1 h C ∧ C.pc 1 = .at .failed := by
  obtain ⟨h, C, h1, _, h2⟩ := User.Run.shows (m := (program cRep Nat).mach) (c := Stress.script (stressSetup cRep true 1 0 1)) (k₀ := .absent) (s := (SConf.initial cRep 1).s)
    (g := .init) (start := Stress.start (stressSetup cRep true 1 0 1)) (ok := Program.ok fun _ _ => True) (okB := Program.okB okc) (tau := .tau)
    (fun _ _ _ => okB_spec okc_spec) (tau_ok _) noReader (f := fun _ => ()) (q := fun C => C.pc 1) (b := .at .failed) rfl
  exact ⟨h, C, h1, h2⟩

end Verif.Queue.Code.StressEx

namespace Verif.Queue.Code.RaStressEx
open Lin Text TextEx RaEx
open Stack.WordEx (cRep)
open User.Run (steps made)

/-- One writer, two readers, two elements. Reader 1 does not see the first `push`, reads 0 from `writers_finished`, and does not see the `push`es after the writer has left
either; having read 1 it takes both elements. -/
def sched : List (Nat × User.Choice (RCh cRep)) :=
  steps 0 3 ++ made (push 0 1 2 0 0 0 0) ++ made (look 1 0 0 0) ++ [(1, .go false)] ++ steps 0 4 ++ made (push 0 2 1 1 0 1 1) ++ steps 0 4 ++ made (look 1 0 0 0) ++ steps 1 1 ++
  made (RaEx.pop 1 0 2 1 1) ++ steps 1 3 ++ made (RaEx.pop 1 1 2 2 2) ++ steps 1 3 ++ made (look 1 2 2 1) ++ steps 1 1 ++ made (look 2 0 0 0) ++ steps 2 1 ++ made (look 2 2 2 1) ++ steps 2 1 ++
  steps 3 4

def hist : History (Op Nat) (Ret Nat) :=
  [.inv 0 (.push false 1), .res 0 (.pushed true), .inv 1 .pop, .res 1 (.popped none), .inv 0 (.push false 2), .res 0 (.pushed true),
   .inv 1 .pop, .res 1 (.popped none), .inv 1 .pop, .res 1 (.popped (some 1)), .inv 1 .pop, .res 1 (.popped (some 2)),
   .inv 1 .pop, .res 1 (.popped none), .inv 2 .pop, .res 2 (.popped none), .inv 2 .pop, .res 2 (.popped none)]

set_option maxRecDepth 20000 in
/-- C65: the stress test to its end -/
theorem runs : ∃ h C, RaStressRuns cRep 1 false 1 2 2 h C ∧ bare h = hist ∧ C.pc 3 = .at .passed :=
  User.Run.shows (okB := okB) (tau := .tau) (fun _ _ _ => RaEx.okB_spec) RaEx.tau_ok sched (f := bare) rfl

example : ∃ h C, RaStressRuns cRep 1 false 1 2 2 h C ∧ bare h = hist ∧ (delivered (bare h)).Perm [1, 2] ∧ C.s.2.data = [] ∧ HoldsW cRep C.s.1.s [] := by
  obtain ⟨h, C, h1, h2, h3⟩ := runs
  obtain ⟨h4, h5⟩ := queue_ra_stress_passed cRep_faithful (by decide) (by decide) h1 h3 trivial
  exact ⟨h, C, h1, h2, h4.values, h4.data, h5⟩

/-- The program with `writers_finished.load( memory_order_relaxed )` in test_common.hpp:104: one writer, one reader, one element. -/
def relaxedSetup : Stress.Setup (RCh cRep) (Ret Nat × View Queue.Loc) := { raStressSetup cRep false 1 1 1 with see := [] }

/-- The reader has read 1 from `writers_finished` and finds the queue empty. -/
def relaxedSched : List (Nat × User.Choice (RCh cRep)) :=
  steps 0 3 ++ made (push 0 1 2 0 0 0 0) ++ steps 0 4 ++ made (look 1 0 0 0) ++ steps 1 1 ++ made (look 1 0 0 0) ++ steps 1 1 ++ steps 2 3

set_option maxRecDepth 20000 in
/-- **C65 (what does not hold).** If the load of `writers_finished` is relaxed, the stress test may fail. -/
theorem queue_ra_stress_relaxed : ∃ h C, Stress.Runs (raMach true (program cRep Nat)) relaxedSetup raOk (RaConf.initial cRep Nat 1).s h C ∧ C.pc 2 = .at .failed := by
  obtain ⟨h, C, h1, _, h2⟩ := User.Run.shows (m := raMach true (program cRep Nat)) (c := Stress.script relaxedSetup) (k₀ := .absent) (s := (RaConf.initial cRep Nat 1).s)
    (g := .init) (start := Stress.start relaxedSetup) (ok := raOk) (okB := okB) (tau := .tau) (fun _ _ _ => RaEx.okB_spec) RaEx.tau_ok relaxedSched
    (f := fun _ => ()) (q := fun C => C.pc 2) (b := .at .failed) rfl
  exact ⟨h, C, h1, h2⟩

end Verif.Queue.Code.RaStressEx
