import Verif.Queue.TextExamples

/-!
# The output argument of `queue::pop` (C56)

`pop` copies the payload to its argument before the compare-exchange that decides whether it gets the element (queue.hpp:446-451). The comment in
the code says so: "Might modify return argument even if operation fails" (queue.hpp:403). Here is how far this goes. No further code of /repo is
modelled.
-/

namespace Verif.Queue.Code
open Lin Text

namespace OutputEx

/-- Thread `t` makes `k` accesses. -/
def acts {K : Words} (t k : Nat) : List (Nat × TChoice (SChoice K (Op Nat) Nat) (Op Nat)) := List.replicate k (t, .act .go)

/-- Thread 0 pushes 5. Thread 1 calls `pop` and is about to copy. Thread 0 pops. -/
def sched {K : Words} : List (Nat × TChoice (SChoice K (Op Nat) Nat) (Op Nat)) :=
  (0, .call (.push true 5)) :: acts 0 11 ++ (1, .call .pop) :: acts 1 4 ++ (0, .call .pop) :: acts 0 10

/-- Thread 1 copies, fails, finds the queue empty; up to the end of the text of `pop`. -/
def rest {K : Words} (ch : SChoice K (Op Nat) Nat) : List (Nat × TChoice (SChoice K (Op Nat) Nat) (Op Nat)) :=
  [(1, .act ch), (1, .act .go)] ++ acts 1 3

def hist : History (Op Nat) (Ret Nat) :=
  [.inv 0 (.push true 5), .res 0 (.pushed true), .inv 1 .pop, .inv 0 .pop, .res 0 (.popped (some 5))]

def okc {K : Words} (_ : SSt K Nat) (_ : Op Nat) : Bool := true

abbrev mid : TConf (indexRep 2) Nat :=
  (program (indexRep 2) Nat).after okc ⟨(SConf.initial (indexRep 2) 1).s, fun _ => .idle⟩ sched

abbrev late (ch : SChoice (indexWords 2) (Op Nat) Nat) : TConf (indexRep 2) Nat := (program (indexRep 2) Nat).after okc mid (rest ch)

end OutputEx
open OutputEx

abbrev ending (ch : SChoice (indexWords 2) (Op Nat) Nat) : TConf (indexRep 2) Nat :=
  (program (indexRep 2) Nat).mach.after (Program.okB okc) (late ch) ((1, .act .go) :: List.replicate 8 (1, .tau))

set_option maxRecDepth 8000 in
theorem ending_exec : TextExec (indexRep 2) 1 hist (ending (.garbage 7)) := by
  have h1 : TextExec (indexRep 2) 1 hist mid := after_steps (fun _ _ _ => trivial) rfl
  have h2 := h1.trans (after_steps (P := program (indexRep 2) Nat) (okCall := fun _ _ => True) (okc := okc) (h := []) (sched := rest (.garbage 7))
    (fun _ _ _ => trivial) rfl)
  have h3 := h2.trans (Mach.after_steps (m := (program (indexRep 2) Nat).mach) (h := [])
    (sched := (1, .act .go) :: List.replicate 8 (1, .tau)) (fun _ _ _ => okB_spec (okc := okc) (fun _ _ _ => trivial)) rfl)
  simp only [List.append_nil] at h3
  exact h3

set_option maxRecDepth 8000 in
/-- **C56 (queue, the negative part).** A `pop` that returns false may have overwritten its argument, even with a value that was never in the queue:
only 5 is pushed, a `pop` is about to return false, and its argument is 7. -/
theorem queue_pop_false_overwrites : ∃ (C : TConf (indexRep 2) Nat) (l : Loc (indexWords 2) Nat), TextExec (indexRep 2) 1
    [.inv 0 (.push true 5), .res 0 (.pushed true), .inv 1 .pop, .inv 0 .pop, .res 0 (.popped (some 5))] C ∧
      C.pc 1 = .run l [] ∧ l.result = .popped none ∧ l.ret = some 7 :=
  ⟨_, _, ending_exec, rfl, rfl, rfl⟩

/-- C56: at the end of a `pop` that takes 5 -/
example : ∃ (C : TConf (indexRep 2) Nat) (l : Loc (indexWords 2) Nat), TextExec (indexRep 2) 1
    [.inv 0 (.push true 5), .res 0 (.pushed true), .inv 0 .pop] C ∧ C.pc 0 = .run l [] ∧ l.result = .popped (some 5) ∧ l.ret = some 5 := by
  have h1 : TextExec (indexRep 2) 1 [.inv 0 (.push true 5), .res 0 (.pushed true), .inv 0 .pop]
      ((program (indexRep 2) Nat).after okc ⟨(SConf.initial (indexRep 2) 1).s, fun _ => .idle⟩
        ((0, .call (.push true 5)) :: acts 0 11 ++ (0, .call .pop) :: acts 0 9)) :=
    after_steps (fun _ _ _ => trivial) (by set_option maxRecDepth 8000 in rfl)
  have hx := h1.trans (Mach.after_steps (m := (program (indexRep 2) Nat).mach) (h := [])
    (sched := (0, .act .go) :: List.replicate 7 (0, .tau)) (fun _ _ _ => okB_spec (okc := okc) (fun _ _ _ => trivial))
    (by set_option maxRecDepth 8000 in rfl))
  simp only [List.append_nil] at hx
  exact ⟨_, _, hx, by set_option maxRecDepth 8000 in rfl, by set_option maxRecDepth 8000 in rfl,
    queue_text_output (t := 0) (indexRep_faithful (by decide)) (by decide) hx (by set_option maxRecDepth 8000 in rfl) (by set_option maxRecDepth 8000 in rfl)⟩

end Verif.Queue.Code
