import Verif.TextRun
import Verif.Queue.TextProps
import Verif.Queue.WordExamples

/-!
# The program text of the queue: concrete executions (C52)

No further code of /repo is modelled here.
-/

namespace Verif.Queue.Code.TextEx
open Lin Text WordEx
open Stack.WordEx (addr nodeAt addr_fits addr_nonnull nodeAt_addr cRep dRep)

abbrev start (R : Rep) (n : Nat) : TConf R Nat := ⟨(SConf.initial R n).s, fun _ => .idle⟩

section
variable {K : Words}

/-- Thread `t` makes `k` accesses. -/
def acts (t k : Nat) : List (Nat × TChoice (SChoice K (Op Nat) Nat) (Op Nat)) := List.replicate k (t, .act .go)

/-- Thread `t` calls `o` and makes `k` accesses. -/
def calls (t : Nat) (o : Op Nat) (k : Nat) : List (Nat × TChoice (SChoice K (Op Nat) Nat) (Op Nat)) := (t, .call o) :: acts t k

/-- The schedule `WordEx.sched`: thread 1 pops, is overtaken by a pop of thread 0, reads garbage as link of its node, notices that `head_` has
changed, and pops what thread 0 has pushed meanwhile. -/
def sched (x : K.W) : List (Nat × TChoice (SChoice K (Op Nat) Nat) (Op Nat)) :=
  calls 0 (.push true 5) 11 ++ calls 1 .pop 2 ++ calls 0 .pop 10 ++ [(1, .act (.torn x)), (1, .act .go)] ++ calls 0 (.push true 6) 11 ++ acts 1 10

end

/-- All calls are allowed. -/
def okc {K : Words} (_ : SSt K Nat) (_ : Op Nat) : Bool := true

theorem okc_spec {K : Words} (s : SSt K Nat) (o : Op Nat) (_ : okc s o = true) : True := trivial

set_option maxRecDepth 8000 in
/-- C52: the same history as on the machine on words, on all three representations -/
theorem index_text : TextExec (indexRep 2) 1 hist
    ((program (indexRep 2) Nat).after okc (start (indexRep 2) 1) (sched (K := indexWords 2) (⟨77#16, 99#16⟩ : Pair 16 16))) :=
  after_steps okc_spec rfl

set_option maxRecDepth 8000 in
theorem compressed_text : TextExec cRep 1 hist ((program cRep Nat).after okc (start cRep 1) (sched 0xfff0fff0#64)) :=
  after_steps okc_spec rfl

set_option maxRecDepth 8000 in
theorem dcas_text : TextExec dRep 1 hist
    ((program dRep Nat).after okc (start dRep 1) (sched (K := dcasWords addr nodeAt) (⟨0xfff0fff0fff0fff0#64, 3#64⟩ : Pair 64 64))) :=
  after_steps okc_spec rfl

theorem cRep_faithful : cRep.Faithful := compressedRep_faithful addr_fits addr_nonnull nodeAt_addr

/-- C52: the machine on words has an execution with this history and this shared state -/
example : ∃ D : SConf cRep.K Nat, WordExec cRep 1 hist D ∧
    D.s = ((program cRep Nat).after okc (start cRep 1) (sched 0xfff0fff0#64)).s :=
  (queue_text_same cRep_faithful (by decide)).1 ⟨_, compressed_text, rfl⟩

/-- C52: and conversely -/
example : ∃ C : TConf cRep Nat, TextExec cRep 1 hist C ∧ C.s = cEnd.s :=
  (queue_text_same cRep_faithful (by decide)).2 ⟨_, cEnd_exec, rfl⟩

example : Linearizable (spec Nat false) hist := queue_text_linearizable cRep_faithful (by decide) compressed_text

abbrev cEndT : TConf cRep Nat := (program cRep Nat).after okc (start cRep 1) (sched 0xfff0fff0#64)

set_option maxRecDepth 8000 in
theorem cEndT_idle (t : Nat) : cEndT.pc t = .idle := by
  match t with
  | 0 | 1 => rfl
  | _ + 2 => rfl

/-- C52: conservation for this execution -/
example : ∃ vs, HoldsW cRep cEndT.s vs ∧ (delivered hist ++ vs).Perm (accepted hist) :=
  queue_text_conservation cRep_faithful (by decide) compressed_text cEndT_idle

/-- C52: the bound for the number of steps, for this execution -/
example : ∃ T k f, Counted (program cRep Nat).mach (Program.ok fun _ _ => True) casFails T
    (start cRep 1) hist cEndT k f ∧ k ≤ 62 * (callCosts (charge T) hist + 6 * f) := by
  obtain ⟨T, k, f, hx⟩ := compressed_text.threads casFails
  exact ⟨T, k, f, hx, queue_text_lock_free cRep_faithful (by decide) hx⟩

/-- Thread 1 is about to copy the payload of a node that thread 0 has freed. -/
abbrev before : TConf cRep Nat :=
  (program cRep Nat).after okc (start cRep 2)
    (calls 0 (.push true 5) 11 ++ calls 0 (.push true 6) 11 ++ calls 1 .pop 4 ++ calls 0 .pop 10 ++ calls 0 .pop 10 ++ calls 0 .empty 2)

def histB : History (Op Nat) (Ret Nat) :=
  [.inv 0 (.push true 5), .res 0 (.pushed true), .inv 0 (.push true 6), .res 0 (.pushed true), .inv 1 .pop, .inv 0 .pop,
   .res 0 (.popped (some 5)), .inv 0 .pop, .res 0 (.popped (some 6)), .inv 0 .empty, .res 0 (.isEmpty true)]

set_option maxRecDepth 8000 in
theorem before_exec : TextExec cRep 2 histB before := after_steps okc_spec rfl

/-- C52: that thread can make a step -/
example : ∃ ch y, (ch = .tau ∨ ch = .act .go ∨ ∃ v, ch = .act (.garbage v)) ∧
    (program cRep Nat).mach.step 1 before.s (before.pc 1) ch = some y := by
  refine queue_text_enabled cRep_faithful (by decide) before_exec ?_ (.inr ?_)
  · intro h
    have := congrArg (fun p => p matches .idle) h
    revert this
    decide
  · decide

set_option maxRecDepth 8000 in
/-- … which returns garbage, since the node has no payload any more; the compare-exchange that follows fails -/
example : (program cRep Nat).mach.step 1 before.s (before.pc 1) (.act .go) = none := rfl

end Verif.Queue.Code.TextEx
