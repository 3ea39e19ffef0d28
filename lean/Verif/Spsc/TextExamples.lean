import Verif.TextRun
import Verif.Spsc.TextProps
import Verif.Spsc.Examples

/-!
# The program text of `spsc_queue`: concrete executions (C55)

No further code of /repo is modelled here.
-/

namespace Verif.Spsc.Code.TextEx
open Lin Text

abbrev start : TConf Nat := ⟨.initial, fun _ => .idle⟩

/-- A thread calls `o` and makes accesses whose loads return the given stores. -/
def calls (t : Nat) (o : Op Nat) (js : List Nat) : List (Nat × TChoice (Choice Nat) (Op Nat)) :=
  (t, .call o) :: js.map fun j => (t, .act (.go j))

/-- Calls allowed by `okCall` that the examples use. -/
def okc (_ : St Nat) : Op Nat → Bool
  | .front false => false
  | .pushMany vs => decide (vs.length < 2 ^ 64)
  | .popMany true (some n) => decide (n < 2 ^ 64)
  | .popMany false (some _) => false
  | _ => true

theorem okc_spec (s : St Nat) (o : Op Nat) (h : okc s o = true) : okCall s o := by
  unfold okc at h
  unfold okCall fits
  split at h <;> split <;> simp_all

/-- The schedules `demo1` and `demo2`: a full queue, stale loads. -/
def sched1 : List (Nat × TChoice (Choice Nat) (Op Nat)) :=
  calls 0 (.push 1) [0, 0, 0, 0] ++ calls 0 (.push 2) [1, 0, 0, 0] ++ calls 0 (.push 3) [2, 0] ++ calls 1 .pop [1, 0, 0, 0, 0] ++
  calls 0 .writeAvail [2, 0]

/-- Range push over the end of the buffer; two bulk pops. -/
def sched2 : List (Nat × TChoice (Choice Nat) (Op Nat)) :=
  calls 0 .writeAvail [2, 1] ++ calls 0 (.pushMany [3, 4]) [2, 1, 0, 0] ++ calls 1 (.front true) [3, 1, 1, 0] ++ calls 1 .readAvail [3, 1] ++
  calls 1 .isEmpty [3, 1] ++ calls 1 (.popMany false none) [3, 1, 0, 0, 0, 0, 0] ++ calls 0 (.pushMany [5, 6, 7]) [3, 2, 0, 0, 0]

def T1 : TConf Nat := (program Nat cfg2 false).after okc start sched1
def T2 : TConf Nat := (program Nat cfg2 false).after okc T1 sched2

set_option maxRecDepth 8000 in
/-- C55: the histories of the examples for the machine -/
theorem text1 : TextExec cfg2 false history1 T1 := ⟨_, .fresh, Text.after_steps okc_spec rfl⟩

set_option maxRecDepth 8000 in
theorem part2 : MSteps (program Nat cfg2 false).mach (Program.ok okCall) T1 history2 T2 := Text.after_steps okc_spec rfl

theorem text2 : TextExec cfg2 false (history1 ++ history2) T2 := by
  obtain ⟨s, h1, h2⟩ := text1
  exact ⟨s, h1, h2.trans part2⟩

/-- C55: the machine gets into the same shared state -/
example : ∃ D : Conf Nat, MSteps (mach Nat cfg2) (okText false) ⟨.initial, fun _ => .idle⟩ history1 D ∧ D.s = T1.s :=
  (spsc_text_same cfg2_holds .fresh _).1 ⟨T1, Text.after_steps okc_spec (by set_option maxRecDepth 8000 in rfl), rfl⟩

/-- C55: the machine's execution, and the text's that belongs to it -/
example : ∃ C : TConf Nat, MSteps (program Nat cfg2 false).mach (Program.ok okCall) ⟨.initial, fun _ => .idle⟩
    [.inv 0 (.push 1), .res 0 (.pushed true)] C ∧ C.s = (after Conf.initial (callSched 0 (.push 1) [0, 0, 0, 0, 0])).s := by
  have h : MSteps (mach Nat cfg2) (okText false) Conf.initial [.inv 0 (.push 1), .res 0 (.pushed true)]
      (after Conf.initial (callSched 0 (.push 1) [0, 0, 0, 0, 0])) := by
    refine MSteps.runOk (m := mach Nat cfg2) (okb := fun s p ch => okb s p ch && match ch with | .call o => okc s o | _ => true)
      (fun s p ch h => ?_) (.refl Conf.initial) (sched := callSched 0 (.push 1) [0, 0, 0, 0, 0]) rfl
    simp only [Bool.and_eq_true] at h
    exact ⟨okb_spec _ _ _ h.1, by simp, fun o ho => by subst ho; exact (okc_spec s o h.2).1⟩
  exact (spsc_text_same cfg2_holds .fresh _).2 ⟨_, h, rfl⟩

/-- C55 (first in, first out) -/
example : accepted (history1 ++ history2) = [1, 2, 3, 5, 6] ∧ delivered (history1 ++ history2) = [1, 2, 3] ∧
    accepted (history1 ++ history2) = delivered (history1 ++ history2) ++ T2.s.acc.drop T2.s.rel :=
  ⟨rfl, rfl, (spsc_text_fifo_quiescent cfg2_holds text2 rfl rfl).2.2.2⟩

/-- C55 (objects) -/
example : T2.s.ctor = 5 ∧ T2.s.dtor = 3 ∧ T2.s.cell 0 = some 5 ∧ T2.s.cell 1 = some 6 ∧ T2.s.cell 2 = none := ⟨rfl, rfl, rfl, rfl, rfl⟩

/-- C55 (calls): the range push that sees one free place -/
example : producerPost 2 T1.s ((program Nat cfg2 false).after okc T1 (calls 0 (.pushMany [3, 4]) [2, 1, 0, 0])).s (.pushMany [3, 4])
    (.pushedMany 1) :=
  spsc_text_producer_call cfg2_holds text1 rfl (h' := [.inv 0 (.pushMany [3, 4]), .res 0 (.pushedMany 1)])
    (Text.after_steps okc_spec (by set_option maxRecDepth 8000 in rfl)) rfl

/-- C55 (calls): `consume_all` while the producer pushes -/
example : consumerPost T1.s ((program Nat cfg2 false).after okc T1
      (calls 1 (.popMany false none) [2, 1, 0] ++ calls 0 (.push 9) [2, 1, 0, 0] ++ [(1, .act (.go 0)), (1, .act (.go 0))])).s
    (.popMany false none) (.poppedMany [2]) :=
  spsc_text_consumer_call cfg2_holds text1 rfl
    (h' := [.inv 1 (.popMany false none), .inv 0 (.push 9), .res 0 (.pushed true), .res 1 (.poppedMany [2])])
    (Text.after_steps okc_spec (by set_option maxRecDepth 8000 in rfl)) rfl

/-- C55 (reliability): two elements are available, and the pop gets both -/
example : (2 ≤ 2) ∧ PopsServed 2 [(.popMany true (some 5), .poppedMany [2, 3])] := by
  have hx := text1
  obtain ⟨s, h1, h2⟩ := hx
  obtain ⟨h1, h2, -⟩ := spsc_text_read_available_reliable cfg2_holds (sc := false)
    ⟨s, h1, h2.trans (Text.after_steps (h := [.inv 0 (.push 3), .res 0 (.pushed true)]) (sched := calls 0 (.push 3) [2, 1, 0, 0]) okc_spec
      (by set_option maxRecDepth 8000 in rfl))⟩ rfl (n := 2) (cs := [(.popMany true (some 5), .poppedMany [2, 3])])
    (h' := [.inv 1 .readAvail, .res 1 (.readAvail 2), .inv 1 (.popMany true (some 5)), .res 1 (.poppedMany [2, 3])])
    (Text.after_steps okc_spec (sched := calls 1 .readAvail [3, 1] ++ calls 1 (.popMany true (some 5)) [3, 1, 0, 0, 0, 0, 0])
      (by set_option maxRecDepth 8000 in rfl)) rfl
  exact ⟨h1, h2⟩

/-- C55 (reliability): one place is free, and the push succeeds although the consumer makes a call in between -/
example : (1 ≤ 2) ∧ PushesServed 1 [(.push 3, .pushed true)] :=
  spsc_text_write_available_reliable cfg2_holds text1 rfl (n := 1) (cs := [(.push 3, .pushed true)])
    (h' := [.inv 0 .writeAvail, .res 0 (.writeAvail 1), .inv 1 .pop, .res 1 (.popped (some 2)), .inv 0 (.push 3), .res 0 (.pushed true)])
    (Text.after_steps okc_spec (sched := calls 0 .writeAvail [2, 1] ++ calls 1 .pop [2, 1, 0, 0, 0] ++ calls 0 (.push 3) [2, 1, 0, 0])
      (by set_option maxRecDepth 8000 in rfl)) rfl

/-- C55 (`front()`) -/
example : (delivers ((.pop, .popped (some 2)) : Op Nat × Ret Nat)).head? = some 2 :=
  spsc_text_front (b := true) cfg2_holds text1 rfl
    (h' := [.inv 1 (.front true), .res 1 (.front 2), .inv 0 (.push 9), .res 0 (.pushed true), .inv 1 .pop, .res 1 (.popped (some 2))])
    (Text.after_steps okc_spec (sched := calls 1 (.front true) [2, 1, 1, 0] ++ calls 0 (.push 9) [2, 1, 0, 0] ++ calls 1 .pop [2, 1, 0, 0, 0])
      (by set_option maxRecDepth 8000 in rfl)) rfl trivial (by simp) (by simp)

/-- C55 (exceptions): the copy of the second element of a range push that does not wrap around throws, the first is destroyed again; the queue
works on. Then the functor of `consume_one` throws, and `pop` gets the same element. -/
theorem text_throw : TextExec cfg2 false
    [.inv 0 (.pushMany [1, 2]), .res 0 .threw, .inv 0 (.push 3), .res 0 (.pushed true), .inv 1 .pop, .res 1 .threw,
      .inv 1 .pop, .res 1 (.popped (some 3))]
    ((program Nat cfg2 false).after okc start (calls 0 (.pushMany [1, 2]) [0, 0, 0] ++ [(0, .act .throw), (0, .act (.go 0))] ++
      calls 0 (.push 3) [0, 0, 0, 0] ++ calls 1 .pop [1, 0] ++ [(1, .act .throw)] ++ calls 1 .pop [1, 0, 0, 0, 0])) :=
  ⟨_, .fresh, Text.after_steps okc_spec (by set_option maxRecDepth 8000 in rfl)⟩

example : ((program Nat cfg2 false).after okc start (calls 0 (.pushMany [1, 2]) [0, 0, 0] ++ [(0, .act .throw), (0, .act (.go 0))])).s.ctor = 1 ∧
    ((program Nat cfg2 false).after okc start (calls 0 (.pushMany [1, 2]) [0, 0, 0] ++ [(0, .act .throw), (0, .act (.go 0))])).s.dtor = 1 :=
  ⟨rfl, rfl⟩

/-- C55 (linearizability): every load returns the latest store -/
def schedSC : List (Nat × TChoice (Choice Nat) (Op Nat)) :=
  calls 0 (.push 1) [0, 0, 0] ++ calls 1 .pop [0, 0] ++ [(0, .act (.go 0))] ++ calls 1 .pop [1, 0, 0] ++ calls 0 (.pushMany [2, 3, 4]) [1, 0, 0, 0] ++
  [(1, .act (.go 0)), (1, .act (.go 0))]

def histSC : History (Op Nat) (Ret Nat) :=
  [.inv 0 (.push 1), .inv 1 .pop, .res 1 (.popped none), .res 0 (.pushed true), .inv 1 .pop, .inv 0 (.pushMany [2, 3, 4]), .res 0 (.pushedMany 1),
   .res 1 (.popped (some 1))]

example : Linearizable (spec Nat 2) histSC :=
  spsc_text_linearizable cfg2_holds (C := (program Nat cfg2 true).after okc start schedSC)
    ⟨_, .fresh, Text.after_steps okc_spec (by set_option maxRecDepth 8000 in rfl)⟩

/-- With `sc`, a stale load is no step that is covered: `history1` needs them. -/
example : (program Nat cfg2 true).drive okc start [] sched1 = none := by set_option maxRecDepth 8000 in rfl

/-- C55 (linearizability): `empty()` of the producer loads `read_index_` first; a pop comes between its two loads; it returns false although the
queue is empty when it returns. With the other order it would return true. -/
example : Linearizable (spec Nat 2) [.inv 0 (.push 1), .res 0 (.pushed true), .inv 0 .isEmpty, .inv 1 .pop, .res 1 (.popped (some 1)),
      .res 0 (.isEmpty false)] ∧
    Linearizable (spec Nat 2) [.inv 0 (.push 1), .res 0 (.pushed true), .inv 0 .isEmpty, .inv 1 .pop, .res 1 (.popped (some 1)),
      .res 0 (.isEmpty true)] :=
  ⟨spsc_text_linearizable cfg2_holds (C := (program Nat cfg2 true).after okc start (calls 0 (.push 1) [0, 0, 0, 0] ++
      [(0, .call .isEmpty), (0, .act (.swap 0))] ++ calls 1 .pop [1, 0, 0, 0, 0] ++ [(0, .act (.go 1))]))
      ⟨_, .fresh, Text.after_steps okc_spec (by set_option maxRecDepth 8000 in rfl)⟩,
    spsc_text_linearizable cfg2_holds (C := (program Nat cfg2 true).after okc start (calls 0 (.push 1) [0, 0, 0, 0] ++
      [(0, .call .isEmpty), (0, .act (.go 1))] ++ calls 1 .pop [1, 0, 0, 0, 0] ++ [(0, .act (.go 1))]))
      ⟨_, .fresh, Text.after_steps okc_spec (by set_option maxRecDepth 8000 in rfl)⟩⟩

/-- C55 (`reset()` of a trivial type in the middle of a history) -/
example : ∃ s : St Nat, TextStart (⟨3, true⟩ : Cfg) false s ∧ s.ctor = 1 ∧ s.wlast = 0 := by
  have hx : MSteps (program Nat ⟨3, true⟩ false).mach (Program.ok okCall) start [.inv 0 (.push 1), .res 0 (.pushed true)] _ :=
    Text.after_steps okc_spec (sched := calls 0 (.push 1) [0, 0, 0, 0]) rfl
  refine ⟨_, .reset .fresh hx (fun t => ?_) rfl, rfl, rfl⟩
  match t with
  | 0 => rfl
  | t + 1 => rfl

/-- Step by step, `k` steps of thread `t` by `tau` after each access. -/
def spell (t : Nat) (o : Op Nat) (l : List (Nat × Nat)) (k : Nat) : List (Nat × TChoice (Choice Nat) (Op Nat)) :=
  (t, .call o) :: l.flatMap (fun x => List.replicate x.1 (t, .tau) ++ [(t, .act (.go x.2))]) ++ List.replicate k (t, .tau)

/-- C55 (wait-freedom): a push takes 33 steps, at most `62 * 6`; a range push that accepts two elements 65, at most `62 * 7` -/
example : ((((program Nat cfg2 false).mach.count (stepsOfThread 0)).run ⟨(St.initial, 0), fun _ => .idle⟩ []
      (spell 0 (.push 3) [(3, 0), (14, 0), (4, 0), (1, 0)] 6)).map fun x => (x.1.s.2, x.2)) =
      some (33, [.inv 0 (.push 3), .res 0 (.pushed true)]) ∧
    ((((program Nat cfg2 false).mach.count (stepsOfThread 0)).run ⟨(St.initial, 0), fun _ => .idle⟩ []
      (spell 0 (.pushMany [3, 4, 5]) [(3, 0), (1, 0), (33, 0), (6, 0), (10, 0)] 6)).map fun x => (x.1.s.2, x.2)) =
      some (65, [.inv 0 (.pushMany [3, 4, 5]), .res 0 (.pushedMany 2)]) ∧
    62 * stepsOf 2 (.push 3 : Op Nat) (.pushed true) = 62 * 6 ∧ 62 * stepsOf 2 (.pushMany [3, 4, 5] : Op Nat) (.pushedMany 2) = 62 * 7 := by
  refine ⟨?_, ?_, rfl, rfl⟩ <;> set_option maxRecDepth 8000 in rfl

/-- C56: at the end of a `pop` that finds 2, and of one that finds the queue empty -/
example : ∃ (C : TConf Nat) (l : Loc Nat), TextExec cfg2 false (history1 ++ [.inv 1 .pop]) C ∧ C.pc 1 = .run l [] ∧
    l.result = .popped (some 2) ∧ l.out = [2] := by
  have h1 : MSteps (program Nat cfg2 false).mach (Program.ok okCall) T1 [.inv 1 .pop] _ := Mach.after_steps (m := (program Nat cfg2 false).mach)
    (sched := spell 1 .pop [(3, 2), (1, 1), (4, 0), (1, 0), (14, 0)] 4) (fun _ _ _ => okB_spec okc_spec) rfl
  have hx : TextExec cfg2 false (history1 ++ [.inv 1 .pop]) _ := text1.elim fun s h2 => ⟨s, h2.1, h2.2.trans h1⟩
  exact ⟨_, _, hx, rfl, rfl, (spsc_text_output (t := 1) cfg2_holds hx rfl).1 (some 2) rfl⟩

example : ∃ (C : TConf Nat) (l : Loc Nat), TextExec cfg2 false [.inv 1 .pop] C ∧ C.pc 1 = .run l [] ∧ l.result = .popped none ∧ l.out = [] := by
  have h1 : MSteps (program Nat cfg2 false).mach (Program.ok okCall) start [.inv 1 .pop] _ := Mach.after_steps (m := (program Nat cfg2 false).mach)
    (sched := spell 1 .pop [(3, 0), (1, 0)] 6) (fun _ _ _ => okB_spec okc_spec) rfl
  have hx : TextExec cfg2 false [.inv 1 .pop] _ := ⟨_, .fresh, h1⟩
  exact ⟨_, _, hx, rfl, rfl, (spsc_text_output (t := 1) cfg2_holds hx rfl).1 none rfl⟩

end Verif.Spsc.Code.TextEx
