import Verif.Stack.TextUnsyncProps
import Verif.Stack.TextExamples

/-!
# The program text of the unsynchronized member functions of the stack: a concrete execution (C58)

No further code of /repo is modelled here.
-/

namespace Verif.Stack.Code.TextEx
open Lin Text WordEx

/-- Accesses of a thread that is alone. -/
def goes {K : Words} (k : Nat) : List (TChoice (SChoice K (Op Nat) Nat) (Op Nat)) := List.replicate k (.act .go)

/-- A thread-safe `push( 5 )`. -/
abbrev first : TConf cRep Nat := (program cRep Nat).after okc (start cRep 2) (calls 0 (.push true 5) 7)

theorem first_exec : TextExec cRep 2 [.inv 0 (.push true 5), .res 0 (.pushed true)] first := after_steps okc_spec rfl

theorem first_idle (t : Nat) : first.pc t = .idle := by
  match t with
  | 0 => rfl
  | _ + 1 => rfl

/-- Then unsynchronized: 6 is pushed; the second allocation of a range push throws, so that the first node is returned; the copy that `unsynchronized_pop`
makes throws. -/
def unsynchronized : List (TChoice (SChoice cRep.K (Op Nat) Nat) (Op Nat)) :=
  .call (.push false 6) :: goes 7 ++ .call (.pushRange false [7, 8]) :: goes 5 ++ .act .throw :: goes 5 ++ .call (.pop true) :: goes 4

def histU : History (Op Nat) (Ret Nat) :=
  [.inv 1 (.push false 6), .res 1 (.pushed true), .inv 1 (.pushRange false [7, 8]), .res 1 .threw, .inv 1 (.pop true), .res 1 (.popped (some 6))]

abbrev second : SSt cRep.K Nat := ((unsyncProgram cRep Nat).alone okc 1 first.s .idle unsynchronized).2.1

set_option maxRecDepth 8000 in
theorem second_run : UnsyncRun cRep 1 152 first.s .idle histU second .idle := alone_run okc_spec rfl

/-- The whole execution. -/
theorem mixed : MixedText cRep 2 ([.inv 0 (.push true 5), .res 0 (.pushed true)] ++ histU) ⟨second, first.pc⟩ :=
  (MixedText.of_text first_exec).unsync first_idle second_run

/-- It goes on with a thread-safe `pop`. -/
example : ∃ C, MixedText cRep 2 ([.inv 0 (.push true 5), .res 0 (.pushed true)] ++ histU ++ [.inv 0 (.pop false)]) C :=
  ⟨_, mixed.step (t := 0) (ch := .call (.pop false)) (e := some (.inv 0 (.pop false))) rfl (by simp [Program.ok, first_idle])⟩

/-- C58: linearizable -/
example : Linearizable (spec Nat false) ([.inv 0 (.push true 5), .res 0 (.pushed true)] ++ histU) :=
  (stack_unsync_text_linearizable cRep_faithful (by decide) mixed).1

/-- C58: what is left -/
example : ∃ vs, HoldsW cRep second vs ∧ ([6] ++ vs).Perm [5, 6] :=
  stack_unsync_text_conservation cRep_faithful (by decide) mixed first_idle (by simp [histU])

/-- C58: the bound, for these calls -/
example : 152 ≤ 62 * (17 + 31 + 10) :=
  stack_unsync_text_bounded cRep_faithful (by decide) (.of_text first_exec) first_idle second_run

/-- C58: thread-safe functions could have done the same -/
example : ∃ C' : TConf cRep Nat, TextExec cRep 2 ([.inv 0 (.push true 5), .res 0 (.pushed true)] ++ histU) C' ∧ C'.s = second :=
  stack_unsync_text_same cRep_faithful (by decide) mixed

/-- In the middle of `unsynchronized_push( 6 )`. -/
abbrev middle : TextPC cRep Nat := ((unsyncProgram cRep Nat).alone okc 1 first.s .idle (.call (.push false 6) :: goes 3)).2.2.1

set_option maxRecDepth 8000 in
/-- C58: from there it can go on -/
example : ∃ (s' : SSt cRep.K Nat) (k : Nat), UnsyncRun cRep 1 k first.s .idle [.inv 1 (.push false 6)] s' middle ∧
    ∃ ch y, (ch = .tau ∨ ch = .act .go) ∧ (unsyncProgram cRep Nat).mach.step 1 s' middle ch = some y := by
  have hu : UnsyncRun cRep 1 _ first.s .idle [.inv 1 (.push false 6)] _ middle :=
    alone_run (f := 100) okc_spec (sched := .call (.push false 6) :: goes 3) rfl
  refine ⟨_, _, hu, stack_unsync_text_enabled cRep_faithful (by decide) (.of_text first_exec) first_idle hu ?_ (.inr ?_)⟩
  · intro h
    have := congrArg (fun p => p matches .idle) h
    revert this
    decide
  · decide

def taus {K : Words} (k : Nat) : List (TChoice (SChoice K (Op Nat) Nat) (Op Nat)) := List.replicate k .tau

/-- `unsynchronized_pop` up to the end of its text. -/
abbrev popped : List (TChoice (SChoice cRep.K (Op Nat) Nat) (Op Nat)) :=
  .call (.pop false) :: taus 3 ++ .act .go :: taus 6 ++ .act .go :: taus 3 ++ .act .go :: taus 1 ++ .act .go :: taus 5 ++ .act .go :: taus 2 ++ .act .go :: taus 3 ++ .act .go :: taus 0 ++ .act .go :: taus 6

set_option maxRecDepth 8000 in
/-- C58: it has copied 5 -/
example : ∃ (s' : SSt cRep.K Nat) (l : Loc cRep.K Nat) (k : Nat), UnsyncRun cRep 1 k first.s .idle [.inv 1 (.pop false)] s' (.run l []) ∧
    l.result = .popped (some 5) ∧ l.applied = [5] := by
  have hu : UnsyncRun cRep 1 38 first.s .idle [.inv 1 (.pop false)] _ (.run _ []) := alone_run (f := 0) okc_spec (sched := popped) rfl
  exact ⟨_, _, _, hu, rfl, stack_unsync_text_output cRep_faithful (by decide) (.of_text first_exec) first_idle hu rfl⟩

end Verif.Stack.Code.TextEx
