import Verif.Freelist.Examples
import Verif.Queue.TextExamples
import Verif.SequentialUse
import Verif.Spsc.TextExamples
import Verif.Stack.TextExamples

/-!
# The containers used by one thread at a time: concrete executions (C72)

No further code of /repo is modelled here.
-/

namespace Verif.Stack.Code.TextEx
open Lin Text WordEx

/-- Two threads, never at the same time: `simple_stack_test` (stack_test.cpp:20-32). -/
def simple : List (Nat × Op Nat × Ret Nat) :=
  [(0, .push false 1, .pushed true), (1, .push false 2, .pushed true), (1, .pop false, .popped (some 2)), (0, .pop false, .popped (some 1)), (0, .pop false, .popped none)]

set_option maxRecDepth 8000 in
theorem simple_exec : ∃ C, TextExec cRep 2 (sequential simple) C :=
  ⟨(program cRep Nat).after okc (start cRep 2)
    (calls 0 (.push false 1) 7 ++ calls 1 (.push false 2) 7 ++ calls 1 (.pop false) 8 ++ calls 0 (.pop false) 8 ++ calls 0 (.pop false) 1),
    after_steps okc_spec rfl⟩

example : ∃ C, TextExec cRep 2 (sequential simple) C ∧ (simple.map (·.2))[2].2 = .popped (some 2) ∧ (simple.map (·.2))[4].2 = .popped none := by
  obtain ⟨C, hx⟩ := simple_exec
  have h := stack_sequential_lifo (b := false) (thr := false) (vs := [1, 2]) (ps := (simple.map (·.2)).drop 2) cRep_faithful (by decide) hx rfl
    (by simp [simple])
  exact ⟨C, hx, h 0 (by decide), h 2 (by decide)⟩

/-- The theorem excludes something: a stack does not give back the older element first. -/
example : ¬ Linearizable (spec Nat false) (sequential [(0, .push false 1, .pushed true), (0, .push false 2, .pushed true), (0, .pop false, .popped (some 1))]) := by
  intro h
  obtain ⟨σ, hd⟩ := linearizable_sequential.1 h
  obtain ⟨σ', h1, h2⟩ := Does.append (l := [1, 2].map fun v => (Op.push false v, Ret.pushed true)) (l' := [(.pop false, .popped (some 1))]) hd
  have h1 : σ' = [2, 1] := does_pushes h1
  have h2 : Does (spec Nat false) [2, 1] [(.pop false, .popped (some 1))] σ := h1 ▸ h2
  have h3 := does_pops (thr := false) h2 (by simp) 0 (by decide)
  simp at h3

end Verif.Stack.Code.TextEx

namespace Verif.Queue.Code.TextEx
open Lin Text WordEx
open Stack.WordEx (cRep)

/-- Two threads, never at the same time. -/
def simple : List (Nat × Op Nat × Ret Nat) :=
  [(0, .push false 1, .pushed true), (1, .push false 2, .pushed true), (1, .pop, .popped (some 1)), (0, .pop, .popped (some 2)), (0, .pop, .popped none)]

set_option maxRecDepth 8000 in
theorem simple_exec : ∃ C, TextExec cRep 2 (sequential simple) C :=
  ⟨(program cRep Nat).after okc (start cRep 2)
    (calls 0 (.push false 1) 11 ++ calls 1 (.push false 2) 11 ++ calls 1 .pop 10 ++ calls 0 .pop 10 ++ calls 0 .pop 4),
    after_steps okc_spec rfl⟩

example : ∃ C, TextExec cRep 2 (sequential simple) C ∧ (simple.map (·.2))[2].2 = .popped (some 1) ∧ (simple.map (·.2))[4].2 = .popped none := by
  obtain ⟨C, hx⟩ := simple_exec
  have h := queue_sequential_fifo (b := false) (vs := [1, 2]) (ps := (simple.map (·.2)).drop 2) cRep_faithful (by decide) hx rfl
    (by simp [simple])
  exact ⟨C, hx, h 0 (by decide), h 2 (by decide)⟩

end Verif.Queue.Code.TextEx

namespace Verif.Spsc.Code.TextEx
open Lin Text

/-- A queue for two elements. -/
def simple : List (Nat × Op Nat × Ret Nat) :=
  [(0, .push 1, .pushed true), (0, .push 2, .pushed true), (0, .push 3, .pushed false), (1, .pop, .popped (some 1)), (1, .pop, .popped (some 2)), (1, .pop, .popped none)]

set_option maxRecDepth 8000 in
theorem simple_exec : ∃ C, TextExec cfg2 true (sequential simple) C :=
  ⟨(program Nat cfg2 true).after okc start
    (calls 0 (.push 1) [0, 0, 0, 0] ++ calls 0 (.push 2) [1, 0, 0, 0] ++ calls 0 (.push 3) [2, 0] ++ calls 1 .pop [2, 0, 0, 0, 0] ++ calls 1 .pop [2, 1, 0, 0, 0] ++
      calls 1 .pop [2, 2]),
    _, .fresh, Text.after_steps okc_spec rfl⟩

example : ∃ C, TextExec cfg2 true (sequential simple) C ∧ (simple.map (·.2))[2].2 = .pushed false ∧
    (simple.map (·.2))[3].2 = .popped (some 1) := by
  obtain ⟨C, hx⟩ := simple_exec
  obtain ⟨h1, h2⟩ := spsc_sequential_fifo (vs := [1, 2, 3]) (us := (simple.map (·.2)).take 3) (ps := (simple.map (·.2)).drop 3) cfg2_holds hx rfl rfl (by simp [simple])
    (by simp [simple])
  exact ⟨C, hx, h1 2 (by decide), h2 0 (by decide)⟩

end Verif.Spsc.Code.TextEx

namespace Verif.Freelist.Ex
open Lin Text
open Stack.WordEx (cRep)

/-- `oom_test` with two nodes. -/
def oom : List (Nat × Op Nat × Ret) :=
  [(0, .construct true 5 false, .node (some 1)), (0, .construct true 6 false, .node (some 0)), (0, .construct true 7 false, .node none)]

set_option maxRecDepth 4000 in
theorem oom_exec : ∃ C : TConf cRep Nat, Exec cRep 2 (sequential oom) C :=
  ⟨(program cRep Nat).after okc (start cRep 2) (calls 0 (.construct true 5 false) 4 ++ calls 0 (.construct true 6 false) 4 ++ calls 0 (.construct true 7 false) 1),
    after_steps (fun _ _ _ => trivial) rfl⟩

example : ∃ C : TConf cRep Nat, Exec cRep 2 (sequential oom) C ∧ oom[2].2.2 = .node none := by
  obtain ⟨C, hx⟩ := oom_exec
  exact ⟨C, hx, freelist_sequential_oom cRep_faithful (by decide) hx (by simp [oom, Bounded]) 2 (by decide)⟩

/-- `run_test` with two nodes, on the freelist of fixed size; the nodes are given back in the order in which they were taken. -/
def again : List (Nat × Op Nat × Ret) :=
  [(0, .construct false 5 false, .node (some 1)), (0, .construct false 6 false, .node (some 0)), (0, .destruct 1, .done), (0, .destruct 0, .done),
   (0, .construct false 7 false, .node (some 0)), (0, .construct false 8 false, .node (some 1))]

set_option maxRecDepth 4000 in
theorem again_exec : ∃ C : TConf (indexRep 2) Nat, Exec (indexRep 2) 2 (sequential again) C :=
  ⟨(program (indexRep 2) Nat).after okc (start (indexRep 2) 2) (calls 0 (.construct false 5 false) 4 ++ calls 0 (.construct false 6 false) 4 ++
    calls 0 (.destruct 1) 4 ++ calls 0 (.destruct 0) 4 ++ calls 0 (.construct false 7 false) 4 ++ calls 0 (.construct false 8 false) 4),
    after_steps (fun _ _ _ => trivial) rfl⟩

example : ∃ C : TConf (indexRep 2) Nat, Exec (indexRep 2) 2 (sequential again) C ∧ (again.map (·.2))[4].2 = .node (some 0) := by
  obtain ⟨C, hx⟩ := again_exec
  exact ⟨C, hx, freelist_sequential_reuse (as := (again.map (·.2)).take 2) (ms := [1, 0]) (bs := (again.map (·.2)).drop 4) (indexRep_faithful (by decide)) (by decide) hx
    (disciplinedB_spec rfl) rfl (by simp [again, Bounded, indexRep]) (by simp [again, Bounded, indexRep]) 0 (by decide)⟩

end Verif.Freelist.Ex
