import Verif.Freelist.TesterExamples
import Verif.Freelist.TesterStuck
import Verif.Queue.Stuck
import Verif.Spsc.StressExamples
import Verif.Spsc.StressStuck
import Verif.Stack.Stuck
import Verif.StressExamples

/-!
# No deadlock: concrete configurations (C71)

No further code of /repo is modelled here.
-/

namespace Verif.Stack.Code.StressEx
open Lin Text WordEx TextEx
open User.Run (steps)

/-- What is seen of a thread: its place, and whether it is in a call. -/
def look {P : Type} : User.PC Stress.At P → Stress.At × Bool
  | .at k => (k, false)
  | .call k _ => (k, true)

theorem look_at {P : Type} {p : User.PC Stress.At P} {k : Stress.At} (h : look p = (k, false)) : p = .at k := by
  cases p <;> simp [look] at h
  rw [h]

/-- `run` cannot go on while a writer is running. -/
theorem waits {R : Rep} {bd : Bool} {nw nr k n : Nat} {C : MConf (SSt R.K Nat × Stress.Vars) (User.PC Stress.At (TPC (SSt R.K Nat) (Loc R.K Nat) (SChoice R.K (Op Nat) Nat) (Ret Nat)))}
    (hm : C.pc n = .at .joinWriters) (hw : 0 < nw) (he : C.s.2.ended 0 = false) :
    ¬ (User.mach (program R Nat).mach (Stress.script (stressSetup R bd nw nr k)) .absent).CanStep C n := by
  rintro ⟨ch, y, h⟩
  rw [hm] at h
  have : (List.range (stressSetup R bd nw nr k).writers).all C.s.2.ended = false := by
    simp only [List.all_eq_false, List.mem_range, Bool.not_eq_true]
    exact ⟨0, hw, he⟩
  cases ch <;> simp only [User.mach, Stress.script, this] at h <;> simp at h

set_option maxRecDepth 20000 in
/-- The reader has ended a call that found no element, the writer is in a call of `bounded_push`: `run` waits, another thread goes on. -/
example : ∃ h C, StressRuns cRep 1 true 1 1 2 h C ∧ h = [.inv 1 (.pop false), .res 1 (.popped none), .inv 0 (.push true 1)] ∧
    ¬ (User.mach (program cRep Nat).mach (Stress.script (stressSetup cRep true 1 1 2)) .absent).CanStep C 2 ∧
    ∃ u ≤ 2, (User.mach (program cRep Nat).mach (Stress.script (stressSetup cRep true 1 1 2)) .absent).CanStep C u := by
  obtain ⟨h, C, hx, rfl, hC⟩ : ∃ h C, StressRuns cRep 1 true 1 1 2 h C ∧ h = [.inv 1 (.pop false), .res 1 (.popped none), .inv 0 (.push true 1)] ∧
      (look (C.pc 0), look (C.pc 1), look (C.pc 2), C.s.2.ended 0, C.s.1.mem.nalloc) = ((.push 0 1, true), (.load, false), (.joinWriters, false), false, 1) :=
    User.Run.shows (okB := Program.okB okc) (tau := .tau) (fun _ _ _ => okB_spec okc_spec) (tau_ok _) (call 1 1 ++ steps 0 3 ++ call 0 3) (f := id) rfl
  simp only [Prod.mk.injEq] at hC
  obtain ⟨h0, h1, h2, h3, h4⟩ := hC
  refine ⟨_, C, hx, rfl, waits (look_at h2) (by decide) h3, ?_⟩
  refine stack_stress_never_stuck cRep_faithful (by decide) (by decide) hx (.inr (by rw [h4]; decide)) (fun u hu i hc => ?_) (by rw [look_at h2]; simp)
  match u, hu with
  | 0, _ => rw [hc] at h0; cases h0
  | 1, _ => rw [hc] at h1; cases h1

end Verif.Stack.Code.StressEx

namespace Verif.Queue.Code.StressEx
open Lin Text WordEx TextEx
open Stack.WordEx (cRep)
open Stack.Code.StressEx (look look_at)
open User.Run (steps)

set_option maxRecDepth 20000 in
/-- The reader has ended a call that found no element, the writer is in a call of `bounded_push`. -/
example : ∃ h C, StressRuns cRep 1 true 1 1 2 h C ∧ h = [.inv 1 .pop, .res 1 (.popped none), .inv 0 (.push true 1)] ∧
    ∃ u ≤ 2, (User.mach (program cRep Nat).mach (Stress.script (stressSetup cRep true 1 1 2)) .absent).CanStep C u := by
  obtain ⟨h, C, hx, rfl, hC⟩ : ∃ h C, StressRuns cRep 1 true 1 1 2 h C ∧ h = [.inv 1 .pop, .res 1 (.popped none), .inv 0 (.push true 1)] ∧
      (look (C.pc 0), look (C.pc 1), look (C.pc 2), C.s.1.mem.nalloc) = ((.push 0 1, true), (.load, false), (.joinWriters, false), 2) :=
    User.Run.shows (okB := Program.okB okc) (tau := .tau) (fun _ _ _ => okB_spec okc_spec) (tau_ok _) (call 1 4 ++ steps 0 3 ++ call 0 3) (f := id) rfl
  simp only [Prod.mk.injEq] at hC
  obtain ⟨h0, h1, h2, h4⟩ := hC
  refine ⟨_, C, hx, rfl, ?_⟩
  refine queue_stress_never_stuck cRep_faithful (by decide) (by decide) hx (.inr (by rw [h4]; decide)) (fun u hu i hc => ?_) (by rw [look_at h2]; simp)
  match u, hu with
  | 0, _ => rw [hc] at h0; cases h0
  | 1, _ => rw [hc] at h1; cases h1

end Verif.Queue.Code.StressEx

namespace Verif.Stack.Code.ExampleEx
open Lin Text WordEx TextEx Example

/-- The thread is at the end of the program, or an exception has left its function. -/
def over {P : Type} : Example.PC P → Bool
  | .at .terminated | .at .print => true
  | _ => false

/-- The producer that has counted to 2 is in the middle of its call. -/
abbrev midway {K : Words} : List (Nat × Example.Choice (TChoice (SChoice K (Op Nat) Nat) (Op Nat))) := steps 0 2 ++ steps 1 2 ++ call 1 3

set_option maxRecDepth 10000 in
example : ∃ u ≤ 4, (Example.mach (program cRep Nat).mach (exampleSetup cRep 2 2 1)).CanStep
    (ending (program cRep Nat) (exampleSetup cRep 2 2 1) okc (SConf.initial cRep 2).s midway) u := by
  have hx : ExampleRuns cRep 2 2 2 1 [.inv 1 (.push false 2)] (ending (program cRep Nat) (exampleSetup cRep 2 2 1) okc (SConf.initial cRep 2).s midway) :=
    ending_runs okc_spec rfl
  have h0 : ∀ u ≤ 4, over ((ending (program cRep Nat) (exampleSetup cRep 2 2 1) okc (SConf.initial cRep 2).s midway).pc u) = false := by decide
  refine stack_example_never_stuck cRep_faithful (by decide) hx (.inr (by decide)) (fun u hu hc => ?_) (fun hc => ?_)
  · have := h0 u (Nat.le_of_lt hu)
    rw [hc] at this
    cases this
  · have := h0 4 (Nat.le_refl _)
    rw [hc] at this
    cases this

end Verif.Stack.Code.ExampleEx

namespace Verif.Queue.Code.ExampleEx
open Lin Text WordEx TextEx Example
open Stack.WordEx (cRep)
open Stack.Code.ExampleEx (over)

/-- The producer that has counted to 2 is in the middle of its call. -/
abbrev midway {K : Words} : List (Nat × Example.Choice (TChoice (SChoice K (Op Nat) Nat) (Op Nat))) := steps 0 2 ++ steps 1 2 ++ call 1 3

set_option maxRecDepth 10000 in
example : ∃ u ≤ 4, (Example.mach (program cRep Nat).mach (exampleSetup cRep 2 2 1)).CanStep
    (ending (program cRep Nat) (exampleSetup cRep 2 2 1) okc (SConf.initial cRep 2).s midway) u := by
  have hx : ExampleRuns cRep 2 2 2 1 [.inv 1 (.push false 2)] (ending (program cRep Nat) (exampleSetup cRep 2 2 1) okc (SConf.initial cRep 2).s midway) :=
    ending_runs okc_spec rfl
  have h0 : ∀ u ≤ 4, over ((ending (program cRep Nat) (exampleSetup cRep 2 2 1) okc (SConf.initial cRep 2).s midway).pc u) = false := by decide
  refine queue_example_never_stuck cRep_faithful (by decide) hx (.inr (by decide)) (fun u hu hc => ?_) (fun hc => ?_)
  · have := h0 u (Nat.le_of_lt hu)
    rw [hc] at this
    cases this
  · have := h0 4 (Nat.le_refl _)
    rw [hc] at this
    cases this

end Verif.Queue.Code.ExampleEx

namespace Verif.Spsc.Code.StressEx
open Lin Text TextEx Spsc.Stress
open User.Run (steps)

/-- What is seen of a thread: its place, and whether it is in a call. -/
def look {P : Type} : User.PC Stress.At P → Stress.At × Bool
  | .at k => (k, false)
  | .call k _ => (k, true)

set_option maxRecDepth 20000 in
/-- The queue, for two elements, is full; the writer is in the call that finds it full, `run` waits for the writer. -/
example : ∃ h C, StressRuns cfg2 false single h C ∧
    h = [.inv 0 (.push 11), .res 0 (.pushed true), .inv 0 (.push 12), .res 0 (.pushed true), .inv 0 (.push 13)] ∧
    ∃ u ≤ 2, (User.mach (program Nat cfg2 false).mach (script single) .absent).CanStep C u := by
  obtain ⟨h, C, hx, rfl, hC⟩ : ∃ h C, StressRuns cfg2 false single h C ∧
      h = [.inv 0 (.push 11), .res 0 (.pushed true), .inv 0 (.push 12), .res 0 (.pushed true), .inv 0 (.push 13)] ∧
      (look (C.pc 0), look (C.pc 1), look (C.pc 2)) = ((.push 2 [13] 0, true), (.pop false, false), (.joinWriter, false)) :=
    User.Run.shows (okB := Program.okB okc) (tau := .tau) (fun _ _ _ => okB_spec okc_spec) tau_ok
      (steps 0 4 ++ call 0 [0, 0, 0, 0] ++ steps 0 5 ++ call 0 [1, 0, 0, 0] ++ steps 0 5 ++ call 0 [2]) (f := id) rfl
  simp only [Prod.mk.injEq] at hC
  obtain ⟨h0, h1, h2⟩ := hC
  exact ⟨_, C, hx, rfl, spsc_stress_never_stuck cfg2_holds (by decide) hx (fun i p hc => by rw [hc] at h0; cases h0) (fun hc => by rw [hc] at h1; cases h1)
    (fun hc => by rw [hc] at h2; cases h2)⟩

end Verif.Spsc.Code.StressEx

namespace Verif.Freelist.Tester.Ex
open Lin Text User Both
open Stack.WordEx (cRep)
open Freelist.Ex (cRep_faithful)
open User.Run (steps)

/-- What is seen of a thread: its place, and whether it is in a call. -/
def look {P : Type} : User.PC At P → At × Bool
  | .at k => (k, false)
  | .call k _ => (k, true)

set_option maxRecDepth 40000 in
/-- The only node is in the queue; the allocator is in a call of `construct` that finds none, the deallocator in a call of `pop`, `run` waits. -/
example : ∃ h C, Runs cRep cRep 1 2 setup h C ∧ h.length = 6 ∧
    ∃ u ≤ 2, (User.mach (both (program cRep Unit).mach (Queue.Code.program cRep Nat).mach) (script setup .call .call) .absent).CanStep C u := by
  obtain ⟨h, C, hx, h5, hC⟩ : ∃ h C, Runs cRep cRep 1 2 setup h C ∧ h.length = 6 ∧
      (look (C.pc 0), look (C.pc 1), look (C.pc 2), C.s.1.1.nalloc, C.s.1.2.mem.nalloc) = ((.construct 1, true), (.pop false, true), (.joinAlloc, false), 1, 3) :=
    shows (steps 0 1 ++ list 0 4 ++ steps 0 1 ++ queue 0 11 ++ steps 0 1 ++ list 0 0 ++ queue 1 4) rfl
  simp only [Prod.mk.injEq] at hC
  obtain ⟨h0, h1, h2, h3, h4⟩ := hC
  refine ⟨h, C, hx, h5, freelist_tester_never_stuck cRep_faithful cRep_faithful (by decide) (by decide) hx (.inr (by rw [h3]; decide)) (.inr (by rw [h4]; decide))
    (fun u hu hc => ?_) (fun hc => by rw [show setup.main = 2 from rfl] at hc; rw [hc] at h2; cases h2)⟩
  match u, hu with
  | 0, _ => rw [hc] at h0; cases h0
  | 1, _ => rw [hc] at h1; cases h1

end Verif.Freelist.Tester.Ex
