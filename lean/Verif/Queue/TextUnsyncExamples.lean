import Verif.Queue.TextUnsyncProps
import Verif.Queue.TextExamples

/-!
# The program text of the unsynchronized member functions of the queue: a concrete execution (C58)

No further code of /repo is modelled here.
-/

namespace Verif.Queue.Code.TextEx
open Lin Text WordEx
open Stack.WordEx (cRep)

/-- Accesses of a thread that is alone. -/
def goes {K : Words} (k : Nat) : List (TChoice (SChoice K (Op Nat) Nat) (Op Nat)) := List.replicate k (.act .go)

/-- A thread-safe `push( 5 )`. -/
abbrev first : TConf cRep Nat := (program cRep Nat).after okc (start cRep 1) (calls 0 (.push true 5) 11)

set_option maxRecDepth 8000 in
theorem first_exec : TextExec cRep 1 [.inv 0 (.push true 5), .res 0 (.pushed true)] first := after_steps okc_spec rfl

theorem first_idle (t : Nat) : first.pc t = .idle := by
  match t with
  | 0 => rfl
  | _ + 1 => rfl

/-- Then unsynchronized: the pool is extended; 6 is pushed; there is no memory to push 7; the copy that `unsynchronized_pop` makes throws, which leaves 5 in the
queue; it is popped. -/
def unsynchronized : List (TChoice (SChoice cRep.K (Op Nat) Nat) (Op Nat)) :=
  .call (.reserve 1) :: goes 4 ++ .call (.push false 6) :: goes 10 ++ .call (.push false 7) :: goes 1 ++ .act .throw ::
    .call .pop :: goes 3 ++ .act .throw :: .call .pop :: goes 9

def histU : History (Op Nat) (Ret Nat) :=
  [.inv 1 (.reserve 1), .res 1 .reserved, .inv 1 (.push false 6), .res 1 (.pushed true), .inv 1 (.push false 7), .res 1 .threw,
   .inv 1 .pop, .res 1 .threw, .inv 1 .pop, .res 1 (.popped (some 5))]

abbrev second : SSt cRep.K Nat := ((unsyncProgram cRep Nat).alone okc 1 first.s .idle unsynchronized).2.1

set_option maxRecDepth 8000 in
theorem second_run : UnsyncRun cRep 1 175 first.s .idle histU second .idle := alone_run okc_spec rfl

/-- The whole execution. -/
theorem mixed : MixedText cRep 1 ([.inv 0 (.push true 5), .res 0 (.pushed true)] ++ histU) ⟨second, first.pc⟩ :=
  (MixedText.of_text first_exec).unsync first_idle second_run

/-- It goes on with a thread-safe `pop`. -/
example : ∃ C, MixedText cRep 1 ([.inv 0 (.push true 5), .res 0 (.pushed true)] ++ histU ++ [.inv 0 .pop]) C :=
  ⟨_, mixed.step (t := 0) (ch := .call .pop) (e := some (.inv 0 .pop)) rfl (by simp [Program.ok, first_idle])⟩

/-- C58: linearizable -/
example : Linearizable (spec Nat false) ([.inv 0 (.push true 5), .res 0 (.pushed true)] ++ histU) :=
  (queue_unsync_text_linearizable cRep_faithful (by decide) mixed).1

/-- C58: what is left -/
example : ∃ vs, HoldsW cRep second vs ∧ ([5] ++ vs).Perm [5, 6] :=
  queue_unsync_text_conservation cRep_faithful (by decide) mixed first_idle

/-- C58: the bound, for these calls -/
example : 175 ≤ 62 * (7 + 17 + 17 + 17 + 17) :=
  queue_unsync_text_bounded cRep_faithful (by decide) (.of_text first_exec) first_idle second_run

/-- C58: thread-safe functions could have done the same -/
example : ∃ C' : TConf cRep Nat, TextExec cRep 1 ([.inv 0 (.push true 5), .res 0 (.pushed true)] ++ histU) C' ∧ C'.s = second :=
  queue_unsync_text_same cRep_faithful (by decide) mixed

/-- In the middle of `unsynchronized_pop`. -/
abbrev middle : TextPC cRep Nat := ((unsyncProgram cRep Nat).alone okc 1 first.s .idle (.call .pop :: goes 3)).2.2.1

set_option maxRecDepth 8000 in
/-- C58: from there it can go on -/
example : ∃ (s' : SSt cRep.K Nat) (k : Nat), UnsyncRun cRep 1 k first.s .idle [.inv 1 .pop] s' middle ∧
    ∃ ch y, (ch = .tau ∨ ch = .act .go) ∧ (unsyncProgram cRep Nat).mach.step 1 s' middle ch = some y := by
  have hu : UnsyncRun cRep 1 _ first.s .idle [.inv 1 .pop] _ middle :=
    alone_run (f := 100) okc_spec (sched := .call .pop :: goes 3) rfl
  refine ⟨_, _, hu, queue_unsync_text_enabled cRep_faithful (by decide) (.of_text first_exec) first_idle hu ?_ (.inr ?_)⟩
  · intro h
    have := congrArg (fun p => p matches .idle) h
    revert this
    decide
  · decide

def taus {K : Words} (k : Nat) : List (TChoice (SChoice K (Op Nat) Nat) (Op Nat)) := List.replicate k .tau

/-- `unsynchronized_pop` up to the end of its text. -/
abbrev popped : List (TChoice (SChoice cRep.K (Op Nat) Nat) (Op Nat)) :=
  .call .pop :: taus 4 ++ .act .go :: taus 3 ++ .act .go :: taus 1 ++ .act .go :: taus 7 ++ .act .go :: taus 3 ++ .act .go :: taus 5 ++
    .act .go :: taus 2 ++ .act .go :: taus 3 ++ .act .go :: taus 0 ++ .act .go :: taus 6

set_option maxRecDepth 8000 in
/-- C58: the output argument is 5 -/
example : ∃ (s' : SSt cRep.K Nat) (l : Loc cRep.K Nat) (k : Nat), UnsyncRun cRep 1 k first.s .idle [.inv 1 .pop] s' (.run l []) ∧
    l.result = .popped (some 5) ∧ l.ret = some 5 := by
  have hu : UnsyncRun cRep 1 44 first.s .idle [.inv 1 .pop] _ (.run _ []) := alone_run (f := 0) okc_spec (sched := popped) rfl
  exact ⟨_, _, _, hu, rfl, queue_unsync_text_output cRep_faithful (by decide) (.of_text first_exec) first_idle hu rfl⟩

end Verif.Queue.Code.TextEx
