import Verif.TextRun
import Verif.Stack.TextProps
import Verif.Stack.WordExamples

/-!
# The program text of the stack: concrete executions (C52)

No further code of /repo is modelled here.
-/

namespace Verif.Stack.Code.TextEx
open Lin Text WordEx

/-- No empty range. -/
def okc {K : Words} (_ : SSt K Nat) : Op Nat → Bool
  | .pushRange _ [] => false
  | _ => true

theorem okc_spec {K : Words} (s : SSt K Nat) (o : Op Nat) (h : okc s o = true) : ∀ b, o ≠ .pushRange b [] := by
  rintro b rfl
  simp [okc] at h

abbrev start (R : Rep) (n : Nat) : TConf R Nat := ⟨(SConf.initial R n).s, fun _ => .idle⟩

section
variable {K : Words}

/-- Thread `t` makes `k` accesses. -/
def acts (t k : Nat) : List (Nat × TChoice (SChoice K (Op Nat) Nat) (Op Nat)) := List.replicate k (t, .act .go)

/-- Thread `t` calls `o` and makes `k` accesses. -/
def calls (t : Nat) (o : Op Nat) (k : Nat) : List (Nat × TChoice (SChoice K (Op Nat) Nat) (Op Nat)) := (t, .call o) :: acts t k

/-- The schedule `WordEx.sched`: thread 1 pops, is overtaken by a pop and a push of thread 0, reads garbage, and tries again. -/
def sched (x : K.H) : List (Nat × TChoice (SChoice K (Op Nat) Nat) (Op Nat)) :=
  calls 0 (.push true 5) 7 ++ calls 1 (.pop false) 1 ++ calls 0 (.pop false) 8 ++ calls 0 (.push true 6) 7 ++ (1, .act (.racy x)) :: acts 1 8

end

set_option maxRecDepth 4000 in
/-- C52: the same history as on the machine on words, on all three representations -/
theorem index_text : TextExec (indexRep 1) 1 hist ((program (indexRep 1) Nat).after okc (start (indexRep 1) 1) (sched 77#16)) :=
  after_steps okc_spec rfl
set_option maxRecDepth 4000 in
theorem compressed_text : TextExec cRep 1 hist ((program cRep Nat).after okc (start cRep 1) (sched 0xfff0fff0#64)) :=
  after_steps okc_spec rfl

set_option maxRecDepth 4000 in
theorem dcas_text : TextExec dRep 1 hist ((program dRep Nat).after okc (start dRep 1) (sched 0xfff0fff0fff0fff0#64)) :=
  after_steps okc_spec rfl

theorem cRep_faithful : cRep.Faithful := compressedRep_faithful addr_fits addr_nonnull nodeAt_addr

/-- C52: the machine on words has an execution with this history and this shared state -/
example : ∃ D : SConf cRep.K Nat, WordExec cRep 1 hist D ∧
    D.s = ((program cRep Nat).after okc (start cRep 1) (sched 0xfff0fff0#64)).s :=
  (stack_text_same cRep_faithful (by decide)).1 ⟨_, compressed_text, rfl⟩

/-- C52: and conversely -/
example : ∃ C : TConf cRep Nat, TextExec cRep 1 hist C ∧ C.s = cEnd.s :=
  (stack_text_same cRep_faithful (by decide)).2 ⟨_, cEnd_exec, rfl⟩

example : Linearizable (spec Nat false) hist := stack_text_linearizable cRep_faithful (by decide) compressed_text

abbrev cEndT : TConf cRep Nat := (program cRep Nat).after okc (start cRep 1) (sched 0xfff0fff0#64)

set_option maxRecDepth 4000 in
theorem cEndT_idle (t : Nat) : cEndT.pc t = .idle := by
  match t with
  | 0 | 1 => rfl
  | _ + 2 => rfl

/-- C52: conservation for this execution -/
example : ∃ vs, HoldsW cRep cEndT.s vs ∧ (delivered hist ++ vs).Perm (accepted hist) :=
  stack_text_conservation cRep_faithful (by decide) compressed_text cEndT_idle (by simp [hist])

/-- A range push, and `consume_all_atomic_reversed` before its last access. -/
abbrev before : TConf cRep Nat :=
  (program cRep Nat).after okc (start cRep 2) (calls 0 (.pushRange true [1, 2]) 13 ++ calls 0 (.consumeAll true none) 17)

def histR : History (Op Nat) (Ret Nat) :=
  [.inv 0 (.pushRange true [1, 2]), .res 0 (.count 2), .inv 0 (.consumeAll true none)]

set_option maxRecDepth 8000 in
theorem before_exec : TextExec cRep 2 histR before := after_steps okc_spec rfl

/-- The last access, and what follows it up to the end of the text. -/
abbrev ending : TConf cRep Nat :=
  (program cRep Nat).mach.after (Program.okB okc) before ((0, .act .go) :: List.replicate 8 (0, .tau))

set_option maxRecDepth 8000 in
theorem ending_exec : TextExec cRep 2 histR ending := by
  have := before_exec.trans (Mach.after_steps (m := (program cRep Nat).mach) (h := [])
    (sched := (0, .act .go) :: List.replicate 8 (0, .tau)) (fun _ _ _ => okB_spec okc_spec) rfl)
  rwa [List.append_nil] at this

set_option maxRecDepth 8000 in
/-- C52: `consume_all_atomic_reversed` returns 2 here, having applied its functor to 1 and 2 -/
theorem ending_returns : ∃ l, ending.pc 0 = .run l [] ∧ l.returned = some 2 ∧ l.result = .took [1, 2] := ⟨_, rfl, rfl, rfl⟩

example : ∃ l vs, ending.pc 0 = .run l [] ∧ l.result = .took vs ∧ 2 = vs.length := by
  obtain ⟨l, h1, h2, -⟩ := ending_returns
  obtain ⟨vs, h3, h4⟩ := stack_text_returned cRep_faithful (by decide) ending_exec h1 h2
  exact ⟨l, vs, h1, h3, h4⟩

/-- C56: its functor was applied to 1 and 2 -/
example : ∃ l, ending.pc 0 = .run l [] ∧ l.applied = [1, 2] := by
  obtain ⟨l, h1, -, h3⟩ := ending_returns
  exact ⟨l, h1, (stack_text_output cRep_faithful (by decide) ending_exec h1).2 _ h3⟩

/-- C56: at the end of a `pop` that finds the stack empty -/
example : ∃ (C : TConf cRep Nat) (l : Loc cRep.K Nat), TextExec cRep 1 [.inv 0 (.pop false)] C ∧ C.pc 0 = .run l [] ∧ l.result = .popped none ∧
    l.applied = [] := by
  have hx : TextExec cRep 1 [.inv 0 (.pop false)] _ := Mach.after_steps (m := (program cRep Nat).mach)
    (sched := [(0, .call (.pop false)), (0, .tau), (0, .tau), (0, .tau), (0, .act .go)] ++ List.replicate 9 (0, .tau))
    (fun _ _ _ => okB_spec okc_spec) rfl
  exact ⟨_, _, hx, rfl, rfl, (stack_text_output (t := 0) cRep_faithful (by decide) hx rfl).1 none rfl⟩

/-- C52: the bound for the number of steps, for the first execution -/
example : ∃ T k f, Counted (program cRep Nat).mach (Program.ok fun _ o => ∀ b, o ≠ .pushRange b []) (Text.spurious isSpur) T
    (start cRep 1) hist cEndT k f ∧ k ≤ 62 * (callCosts (charge T) hist + 2 * f) := by
  obtain ⟨T, k, f, hx⟩ := compressed_text.threads (Text.spurious isSpur)
  exact ⟨T, k, f, hx, stack_text_lock_free cRep_faithful (by decide) hx⟩

/-- C52: a thread in the middle of a call can make a step -/
example : ∃ ch y, (ch = .tau ∨ ch = .act .go) ∧ (program cRep Nat).mach.step 0 before.s (before.pc 0) ch = some y := by
  refine stack_text_enabled cRep_faithful (by decide) before_exec ?_ (.inr ?_)
  · intro h
    have := congrArg (fun p => p matches .idle) h
    revert this
    decide
  · decide

end Verif.Stack.Code.TextEx
