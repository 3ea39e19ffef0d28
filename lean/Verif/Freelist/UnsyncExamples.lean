import Verif.Freelist.UnsyncProps
import Verif.SequentialExamples

/-!
# The functions of the freelists that are not thread-safe: concrete executions (C73)

No further code of /repo is modelled here.
-/

namespace Verif.Freelist.Ex
open Lin Text
open Stack.WordEx (cRep)

/-- Accesses of a thread that is alone. -/
def goes {K : Words} (k : Nat) : List (TChoice (SChoice K (Op Nat) Nat) (Op Nat)) := List.replicate k (.act .go)

/-- `oom_test` with two nodes. -/
def oomU {K : Words} : List (TChoice (SChoice K (Op Nat) Nat) (Op Nat)) :=
  .call (.construct true 5 false) :: goes 4 ++ .call (.construct true 6 false) :: goes 4 ++ .call (.construct true 7 false) :: goes 1

set_option maxRecDepth 8000 in
theorem oomU_run : ∃ k s, UnsyncRun cRep 0 k (SMem.initial cRep 2) .idle (sequential oom) s .idle :=
  ⟨_, _, alone_run (f := 200) (okc := okc) (fun _ _ _ => trivial) (sched := oomU) rfl⟩

theorem oomU_exec : ∃ C : TConf cRep Nat, MixedExec cRep 2 (sequential oom) C := by
  obtain ⟨k, s, hu⟩ := oomU_run
  exact ⟨_, MixedExec.start.unsync (fun _ => rfl) hu⟩

example : ∃ C : TConf cRep Nat, MixedExec cRep 2 (sequential oom) C ∧ oom[2].2.2 = .node none := by
  obtain ⟨C, hx⟩ := oomU_exec
  exact ⟨C, hx, freelist_unsync_oom cRep_faithful (by decide) hx (by simp [oom, Bounded]) 2 (by decide)⟩

/-- A thread-safe `construct`, with two nodes. -/
abbrev safe : TConf cRep Nat := (program cRep Nat).after okc (start cRep 2) (calls 0 (.construct true 5 false) 4)

theorem safe_exec : Exec cRep 2 [.inv 0 (.construct true 5 false), .res 0 (.node (some 1))] safe := after_steps (fun _ _ _ => trivial) rfl

theorem safe_idle (t : Nat) : safe.pc t = .idle := by
  match t with
  | 0 => rfl
  | _ + 1 => rfl

/-- Then, not thread-safe: the other node is taken, the first one is given back, and taken again; the third call asks the allocator. -/
def unsynchronized : List (TChoice (SChoice cRep.K (Op Nat) Nat) (Op Nat)) :=
  .call (.construct false 6 false) :: goes 4 ++ .call (.destruct 1) :: goes 4 ++ .call (.construct false 7 false) :: goes 4 ++ .call (.construct false 8 false) :: goes 3

def histU : History (Op Nat) Ret :=
  [.inv 1 (.construct false 6 false), .res 1 (.node (some 0)), .inv 1 (.destruct 1), .res 1 .done, .inv 1 (.construct false 7 false), .res 1 (.node (some 1)),
   .inv 1 (.construct false 8 false), .res 1 (.node (some 2))]

abbrev second : SMem cRep.K Nat := ((unsyncProgram cRep Nat).alone okc 1 safe.s .idle unsynchronized).2.1

set_option maxRecDepth 8000 in
theorem second_run : ∃ k, UnsyncRun cRep 1 k safe.s .idle histU second .idle := ⟨_, alone_run (f := 200) (okc := okc) (fun _ _ _ => trivial) (sched := unsynchronized) rfl⟩

/-- The whole execution. -/
theorem mixed : MixedExec cRep 2 ([.inv 0 (.construct true 5 false), .res 0 (.node (some 1))] ++ histU) ⟨second, safe.pc⟩ := by
  obtain ⟨k, h⟩ := second_run
  exact (MixedExec.of_exec safe_exec).unsync safe_idle h

theorem mixed_disciplined : Disciplined ([.inv 0 (.construct true 5 false), .res 0 (.node (some 1))] ++ histU) := disciplinedB_spec rfl

/-- It goes on with a thread-safe call. -/
example : ∃ C, MixedExec cRep 2 ([.inv 0 (.construct true 5 false), .res 0 (.node (some 1))] ++ histU ++ [.inv 0 (.destruct 2)]) C :=
  ⟨_, mixed.step (t := 0) (ch := .call (.destruct 2)) (e := some (.inv 0 (.destruct 2))) rfl (by simp [Program.ok, safe_idle])⟩

/-- C73: linearizable -/
example : Linearizable (spec Nat false 2) ([.inv 0 (.construct true 5 false), .res 0 (.node (some 1))] ++ histU) :=
  (freelist_unsync_linearizable cRep_faithful (by decide) mixed).1 mixed_disciplined

/-- C73: all three nodes are at the users -/
example : ∃ F, Linked cRep second (cRep.K.ptr second.pool) F ∧ (F ++ [2, 1, 0]).Perm (List.range 3) :=
  freelist_unsync_conservation cRep_faithful (by decide) mixed mixed_disciplined safe_idle (by simp [histU])

/-- C73: thread-safe functions could have done the same -/
example : ∃ C' : TConf cRep Nat, Exec cRep 2 ([.inv 0 (.construct true 5 false), .res 0 (.node (some 1))] ++ histU) C' ∧ C'.s = second :=
  (freelist_unsync_same cRep_faithful mixed).1

/-- C73: the value in the node taken twice is that of the second object -/
example : second.data 1 = some 7 :=
  freelist_unsync_value cRep_faithful (by decide) mixed mixed_disciplined
    ⟨[.inv 0 (.construct true 5 false), .res 0 (.node (some 1)), .inv 1 (.construct false 6 false), .res 1 (.node (some 0)), .inv 1 (.destruct 1), .res 1 .done], 1, false, false, [],
      [.inv 1 (.construct false 8 false), .res 1 (.node (some 2))], rfl, by simp, by simp⟩

/-- In the middle of `destruct< false >`. -/
abbrev halfway : TextPC cRep Nat := ((unsyncProgram cRep Nat).alone okc 1 safe.s .idle (.call (.destruct 1) :: goes 2)).2.2.1

set_option maxRecDepth 8000 in
/-- C73: from there it can go on, and the number of steps made is bounded -/
example : ∃ (s' : SMem cRep.K Nat) (k : Nat), UnsyncRun cRep 1 k safe.s .idle [.inv 1 (.destruct 1)] s' halfway ∧ k ≤ 42 * 6 ∧
    ∃ ch y, (ch = .tau ∨ ch = .act .go) ∧ (unsyncProgram cRep Nat).mach.step 1 s' halfway ch = some y := by
  have hu : UnsyncRun cRep 1 _ safe.s .idle [.inv 1 (.destruct 1)] _ halfway := alone_run (f := 100) (okc := okc) (fun _ _ _ => trivial) (sched := .call (.destruct 1) :: goes 2) rfl
  refine ⟨_, _, hu, freelist_unsync_bounded cRep_faithful (.of_exec safe_exec) safe_idle hu,
    freelist_unsync_enabled cRep_faithful (by decide) (.of_exec safe_exec) safe_idle hu (disciplinedB_spec rfl) ?_ (.inr ?_)⟩
  · intro h
    have := congrArg (fun p => p matches .idle) h
    revert this
    decide
  · decide

/-- `run_test` with two nodes, on the freelist of fixed size. -/
def againU {K : Words} : List (TChoice (SChoice K (Op Nat) Nat) (Op Nat)) :=
  .call (.construct false 5 false) :: goes 4 ++ .call (.construct false 6 false) :: goes 4 ++ .call (.destruct 1) :: goes 4 ++ .call (.destruct 0) :: goes 4 ++
    .call (.construct false 7 false) :: goes 4 ++ .call (.construct false 8 false) :: goes 4

set_option maxRecDepth 8000 in
theorem againU_run : ∃ k s, UnsyncRun (indexRep 2) 0 k (SMem.initial (indexRep 2) 2) .idle (sequential again) s .idle :=
  ⟨_, _, alone_run (f := 400) (okc := okc) (fun _ _ _ => trivial) (sched := againU) rfl⟩

theorem againU_exec : ∃ C : TConf (indexRep 2) Nat, MixedExec (indexRep 2) 2 (sequential again) C := by
  obtain ⟨k, s, hu⟩ := againU_run
  exact ⟨_, MixedExec.start.unsync (fun _ => rfl) hu⟩

example : ∃ C : TConf (indexRep 2) Nat, MixedExec (indexRep 2) 2 (sequential again) C ∧ (again.map (·.2))[4].2 = .node (some 0) := by
  obtain ⟨C, hx⟩ := againU_exec
  exact ⟨C, hx, freelist_unsync_reuse (as := (again.map (·.2)).take 2) (ms := [1, 0]) (bs := (again.map (·.2)).drop 4) (indexRep_faithful (by decide)) (by decide) hx
    (disciplinedB_spec rfl) rfl (by simp [again, Bounded, indexRep]) (by simp [again, Bounded, indexRep]) 0 (by decide)⟩

end Verif.Freelist.Ex
