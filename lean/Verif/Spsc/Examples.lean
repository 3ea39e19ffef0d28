import Verif.Spsc.Progress
import Verif.Spsc.Neg

/-!
# Concrete executions that meet the hypotheses of the theorems about `spsc_queue`

Capacity 2, element type with destructor. The executions contain wrap-around, stale loads, a full and an empty queue.
-/

namespace Verif.Spsc
open Lin

/-- Steps allowed by `okSafe` that the examples use. -/
def okb (_ : St Nat) (_ : PC Nat) : Choice Nat → Bool
  | .throw | .call (.front false) => false
  | _ => true

theorem okb_spec (s : St Nat) (p ch) (h : okb s p ch = true) : okSafe s p ch := by
  cases ch with
  | call o =>
    cases o <;> try trivial
    rename_i b
    cases b
    · simp [okb] at h
    · trivial
  | throw => simp [okb] at h
  | go j => trivial
  | swap j => trivial
  | sync => trivial

/-- A thread calls `o` and makes steps whose loads return the given stores. -/
def callSched (t : Nat) (o : Op Nat) (js : List Nat) : List (Nat × Choice Nat) :=
  (t, .call o) :: js.map fun j => (t, .go j)

def demo1 : List (Nat × Choice Nat) :=
  callSched 0 (.push 1) [0, 0, 0, 0, 0] ++ callSched 0 (.push 2) [1, 0, 0, 0, 0] ++
  callSched 0 (.push 3) [2, 0, 0] ++
  -- the consumer reads the store of the first push although there is a later one
  callSched 1 .pop [1, 0, 0, 0, 0, 0] ++
  -- the producer reads the initial value of `read_index_` although there is a later one
  callSched 0 .writeAvail [2, 0, 0]

def history1 : History (Op Nat) (Ret Nat) :=
  [.inv 0 (.push 1), .res 0 (.pushed true), .inv 0 (.push 2), .res 0 (.pushed true), .inv 0 (.push 3),
   .res 0 (.pushed false), .inv 1 .pop, .res 1 (.popped (some 1)), .inv 0 .writeAvail, .res 0 (.writeAvail 0)]

/-- The second part: range push over the end of the buffer; two bulk pops. -/
def demo2 : List (Nat × Choice Nat) :=
  callSched 0 .writeAvail [2, 1, 0] ++ callSched 0 (.pushMany [3, 4]) [2, 1, 0, 0, 0] ++
  callSched 1 (.front true) [3, 1, 1, 0, 0] ++ callSched 1 .readAvail [3, 1, 0] ++ callSched 1 .isEmpty [3, 1, 0] ++
  callSched 1 (.popMany false none) [3, 1, 0, 0, 0, 0, 0, 0] ++
  callSched 0 (.pushMany [5, 6, 7]) [3, 2, 0, 0, 0, 0]

def history2 : History (Op Nat) (Ret Nat) :=
  [.inv 0 .writeAvail, .res 0 (.writeAvail 1), .inv 0 (.pushMany [3, 4]), .res 0 (.pushedMany 1),
   .inv 1 (.front true), .res 1 (.front 2), .inv 1 .readAvail, .res 1 (.readAvail 2),
   .inv 1 .isEmpty, .res 1 (.isEmpty false), .inv 1 (.popMany false none), .res 1 (.poppedMany [2, 3]),
   .inv 0 (.pushMany [5, 6, 7]), .res 0 (.pushedMany 2)]

example : (mach Nat cfg2).trace okb (fun C => (C.s.cell 0, C.s.cell 1, C.s.cell 2)) Conf.initial (demo1 ++ demo2) =
    some ((some 5, some 6, none), history1 ++ history2) := by rfl

/-- Final configuration of a schedule. -/
def after (C : Conf Nat) (sched : List (Nat × Choice Nat)) : Conf Nat :=
  match (mach Nat cfg2).runOk okb C [] sched with
  | some (C', _) => C'
  | none => C

theorem after_steps {C : Conf Nat} {sched h}
    (ht : ((mach Nat cfg2).runOk okb C [] sched).map (·.2) = some h) :
    MSteps (mach Nat cfg2) okSafe C h (after C sched) := by
  simp only [Option.map_eq_some_iff] at ht
  obtain ⟨⟨C', h'⟩, h1, rfl⟩ := ht
  have : after C sched = C' := by simp only [after, h1]
  rw [this]
  exact MSteps.runOk okb_spec (.refl _) h1

def C1 : Conf Nat := after Conf.initial demo1

theorem exec1 : Exec cfg2 history1 C1 := ⟨_, .fresh, after_steps rfl⟩

def C2 : Conf Nat := after C1 demo2

theorem steps2 : MSteps (mach Nat cfg2) okSafe C1 history2 C2 := after_steps rfl

theorem exec2 : Exec cfg2 (history1 ++ history2) C2 := exec1.trans steps2

/-- C01 -/
example : accepted (history1 ++ history2) = [1, 2, 3, 5, 6] ∧ delivered (history1 ++ history2) = [1, 2, 3] ∧
    accepted (history1 ++ history2) = delivered (history1 ++ history2) ++ C2.s.acc.drop C2.s.rel :=
  ⟨rfl, rfl, (spsc_fifo_quiescent cfg2_holds exec2 rfl rfl).2.2.2⟩

/-- C02, C05: the stale `write_available()`, and the range push that sees one free place -/
example : producerPost 2 C1.s (after C1 (callSched 0 .writeAvail [2, 1, 0])).s .writeAvail (.writeAvail 1) :=
  spsc_producer_call cfg2_holds exec1 rfl (h' := [.inv 0 .writeAvail, .res 0 (.writeAvail 1)]) (after_steps rfl) rfl

/-- C02: `empty()` of the producer that loads `read_index_` first, a pop between its loads -/
example : producerPost 2 C1.s (after C1 ([(0, .call .isEmpty), (0, .swap 1)] ++ callSched 1 .pop [2, 1, 0, 0, 0, 0] ++ [(0, .go 2), (0, .go 0)])).s
    .isEmpty (.isEmpty false) :=
  spsc_producer_call cfg2_holds exec1 rfl
    (h' := [.inv 0 .isEmpty, .inv 1 .pop, .res 1 (.popped (some 2)), .res 0 (.isEmpty false)]) (after_steps rfl) rfl

/-- C02: the producer knows of the last release; one place is free -/
example : let C := after C2 (callSched 1 (.popMany true (some 1)) [4, 2, 0, 0, 0, 0])
    let D := after C (callSched 0 .writeAvail [4, 3, 0])
    D.s.vp.r = D.s.rlast ∧ D.s.acc.length = D.s.rel + 1 := ⟨rfl, rfl⟩

/-- C03 -/
example : C2.pc 0 ≠ .err := (spsc_no_undefined_behaviour cfg2_holds exec2 0).1

/-- C04: 5 objects were constructed, 3 destroyed, 2 are in the queue -/
example : C2.s.ctor = 5 ∧ C2.s.dtor = 3 ∧ C2.s.cell 0 = some 5 ∧ C2.s.cell 2 = none := ⟨rfl, rfl, rfl, rfl⟩

/-- C04, C09: draining the queue destroys the rest -/
example : let C := after C2 (callSched 1 .readAvail [4, 2, 0] ++ callSched 1 (.popMany false none) [4, 2, 0, 0, 0, 0, 0, 0])
    C.s.ctor = 5 ∧ C.s.dtor = 5 ∧ (after C2 (callSched 1 .readAvail [4, 2, 0])).s.vc.w = C2.s.wlast := ⟨rfl, rfl, rfl⟩

/-- C07: two elements are available, and the pop gets both -/
example : (2 ≤ 2) ∧ PopsServed 2 [(.isEmpty, .isEmpty false), (.popMany false none, .poppedMany [2, 3])] := by
  obtain ⟨h1, h2, -⟩ := spsc_read_available_reliable cfg2_holds
    (Exec.trans exec1 (after_steps (C := C1) (sched := callSched 0 .writeAvail [2, 1, 0] ++
      callSched 0 (.pushMany [3, 4]) [2, 1, 0, 0, 0] ++ callSched 1 (.front true) [3, 1, 1, 0, 0]) rfl)) rfl
    (n := 2) (cs := [(.isEmpty, .isEmpty false), (.popMany false none, .poppedMany [2, 3])])
    (h' := [.inv 1 .readAvail, .res 1 (.readAvail 2),
      .inv 1 .isEmpty, .res 1 (.isEmpty false), .inv 1 (.popMany false none), .res 1 (.poppedMany [2, 3])])
    (after_steps (sched := callSched 1 .readAvail [3, 1, 0] ++ callSched 1 .isEmpty [3, 1, 0] ++
      callSched 1 (.popMany false none) [3, 1, 0, 0, 0, 0, 0, 0]) rfl) rfl
  exact ⟨h1, h2⟩

/-- C08: `front()` names 2, and so does the next pop, although the producer pushed meanwhile -/
example : (delivers ((.pop, .popped (some 2)) : Op Nat × Ret Nat)).head? = some 2 :=
  spsc_front (b := true) cfg2_holds exec1 (h := history1)
    (h' := [.inv 1 (.front true), .res 1 (.front 2), .inv 0 (.push 9), .res 0 (.pushed true), .inv 1 .pop,
      .res 1 (.popped (some 2))]) rfl
    (after_steps (sched := callSched 1 (.front true) [2, 1, 1, 0, 0] ++ callSched 0 (.push 9) [2, 1, 0, 0, 0] ++
      callSched 1 .pop [2, 1, 0, 0, 0, 0]) rfl) rfl trivial (by simp) (by simp)

/-- C09: `reset()` of a trivial type in the middle of a history gives a queue that works from the start again -/
example : ∃ C : Conf Nat, Start (⟨3, true⟩ : Cfg) C ∧ C.s.ctor = 1 ∧ C.s.wlast = 0 := by
  have hx : MSteps (mach Nat ⟨3, true⟩) okSafe Conf.initial [.inv 0 (.push 1), .res 0 (.pushed true)] _ :=
    .runOk okb_spec (.refl _) (sched := callSched 0 (.push 1) [0, 0, 0, 0, 0]) rfl
  refine ⟨_, .reset .fresh hx (fun t => ?_) rfl, rfl, rfl⟩
  match t with
  | 0 => rfl
  | t + 1 => rfl

/-- C10: a range push that accepts one of two elements takes 6 steps of its own, which is the bound for this result -/
example : ((((mach Nat cfg2).count (ownSteps 0)).run ⟨(C1.s, 0), C1.pc⟩ []
      (callSched 0 (.pushMany [3, 4]) [2, 1, 0, 0, 0])).map fun x => x.1.s.2) = some 6 ∧
    stepsOf 2 (.pushMany [3, 4] : Op Nat) (.pushedMany 1) = 6 ∧ maxSteps 2 (.pushMany [3, 4] : Op Nat) = 9 :=
  ⟨rfl, rfl, rfl⟩

/-- C12: `consume_all` has consumed 2, and its functor may throw at 3 -/
theorem exec3 : Exec cfg2
    (history1 ++ [.inv 0 (.push 3), .res 0 (.pushed true), .inv 1 (.popMany false none)])
    (after C1 (callSched 0 (.push 3) [2, 1, 0, 0, 0] ++ callSched 1 (.popMany false none) [3, 1, 0, 0])) :=
  exec1.trans (after_steps rfl)

example : ∃ s', tstep cfg2 1 (after C1 (callSched 0 (.push 3) [2, 1, 0, 0, 0] ++
      callSched 1 (.popMany false none) [3, 1, 0, 0])).s (.bulkRead false 2 1 0 [2] 0) .throw =
        some (s', .ret .threw, none) ∧ s'.rel = 1 ∧ s'.acc = [1, 2, 3] ∧ s'.cell 1 = none := by
  obtain ⟨s', h1, h2, h3, -, h5, -⟩ := spsc_consume_all_throw cfg2_holds exec3 rfl (copy := false) (i := 2) (rem := 1)
    (rest := 0) (outs := [2]) (newR := 0) rfl (by simp)
  refine ⟨s', h1, h2, h3, ?_⟩
  have := h5 0 (by simp)
  rw [h2] at this
  exact this

/-- C12: the pop after the exception -/
example : (((mach Nat cfg2).run (after C1 (callSched 0 (.push 3) [2, 1, 0, 0, 0] ++
    callSched 1 (.popMany false none) [3, 1, 0, 0])) [] ([(1, .throw), (1, .go 0)] ++
      callSched 1 .pop [3, 1, 0])).map fun x => x.1.pc 1) = some .err := by rfl

/-- C42: a range push of two elements that wraps around; the copy of the second throws -/
theorem exec4 : Exec cfg2
    (history1 ++ [.inv 1 .pop, .res 1 (.popped (some 2)), .inv 0 (.pushMany [3, 4])])
    (after C1 (callSched 1 .pop [2, 1, 0, 0, 0, 0] ++ callSched 0 (.pushMany [3, 4]) [2, 2, 0])) :=
  exec1.trans (after_steps rfl)

example : ∃ D leaked, (mach Nat cfg2).run
      (after C1 (callSched 1 .pop [2, 1, 0, 0, 0, 0] ++ callSched 0 (.pushMany [3, 4]) [2, 2, 0])) []
        ((0, .throw) :: List.replicate 0 (0, .go 0)) = some (D, []) ∧ 0 < leaked ∧ D.pc 0 = .ret .threw := by
  obtain ⟨D, leaked, h1, h2, -, -, h3, -⟩ := spsc_range_push_throw_leaks cfg2_holds exec4 rfl (start := 0) (dst := 0)
    (xs := [4]) (rest := []) (total := [3, 4]) (newW := 1) rfl
  exact ⟨D, leaked, h1, h3, h2⟩

/-- C13 -/
example : (bufferSize (BitVec.ofNat 64 (2 ^ 64 - 1))) = 0 ∧
    ((mach Nat ⟨0, false⟩).run Conf.initial [] (callSched 0 (.push 1) [0, 0, 0])).map (fun x => x.1.pc 0) = some .spin :=
  ⟨rfl, rfl⟩

end Verif.Spsc
