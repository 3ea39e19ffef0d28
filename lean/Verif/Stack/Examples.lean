import Verif.After
import Verif.Stack.Destroy
import Verif.Stack.Progress
import Verif.Stack.Aba
import Verif.Stack.Reserve
import Verif.Stack.Solo
import Verif.Stack.Props

/-!
# Concrete executions that meet the hypotheses of the theorems about `stack`

Two values of the tag only (`M = 2`), and more than two removals: tags do wrap, but not within one call.
-/

namespace Verif.Stack.Ex
open Lin

def aFreshB (cfg : Cfg) (h : Heap Nat) : APC → Bool
  | .cas o _ => decide (h.poolVer < o.ver + cfg.M)
  | _ => true

/-- `fresh`, computed. -/
def freshB (cfg : Cfg) (s : St Nat) : PC Nat → Bool
  | .alloc _ _ a => aFreshB cfg s.heap a
  | .pcas _ o _ => decide (s.tosVer < o.ver + cfg.M)
  | .ccas _ _ o => decide (s.tosVer < o.ver + cfg.M)
  | _ => true

theorem freshB_spec {cfg : Cfg} {s : St Nat} {p} (h : freshB cfg s p = true) : fresh cfg s p := by
  cases p with
  | alloc b k a => cases a <;> simp_all [freshB, fresh, aFreshB, aFresh]
  | pcas | ccas => right; simpa [freshB] using h
  | _ => trivial

def okB (cfg : Cfg) (s : St Nat) (p : PC Nat) (ch : Choice (Op Nat)) : Bool :=
  freshB cfg s p && match ch with
    | .call (.pushRange _ []) => false
    | _ => true

theorem okB_spec {cfg : Cfg} (s : St Nat) (p ch) (h : okB cfg s p ch = true) : okFresh cfg s p ch := by
  simp only [okB, Bool.and_eq_true] at h
  refine ⟨freshB_spec h.1, ?_⟩
  rintro b rfl
  simp at h

/-- Without exceptions. -/
def okC (cfg : Cfg) (s : St Nat) (p : PC Nat) (ch : Choice (Op Nat)) : Bool :=
  okB cfg s p ch && !leaky p ch && match ch with
    | .throw => false
    | _ => true

theorem okC_fresh {cfg : Cfg} (s : St Nat) (p ch) (h : okC cfg s p ch = true) : okFresh cfg s p ch := by
  simp only [okC, Bool.and_eq_true] at h; exact okB_spec _ _ _ h.1.1

theorem okC_clean {cfg : Cfg} (s : St Nat) (p ch) (h : okC cfg s p ch = true) : okClean cfg s p ch := by
  simp only [okC, Bool.and_eq_true, Bool.not_eq_true'] at h; exact ⟨okB_spec _ _ _ h.1.1, h.1.2⟩

theorem okC_rsv {cfg : Cfg} (s : St Nat) (p ch) (h : okC cfg s p ch = true) : okRsv cfg s p ch := by
  refine ⟨okC_fresh _ _ _ h, ?_⟩
  rintro k - rfl
  simp [okC] at h

/-- `k` ordinary steps of thread `t`. -/
def go (t k : Nat) : List (Nat × Choice (Op Nat)) := List.replicate k (t, .go)

/-- Thread `t` calls `o` and makes `k` steps. -/
def call (t : Nat) (o : Op Nat) (k : Nat) : List (Nat × Choice (Op Nat)) := (t, .call o) :: go t k

abbrev cfg2 : Cfg := ⟨2, false⟩

abbrev after (C : Conf Nat) (sched : List (Nat × Choice (Op Nat))) : Conf Nat := (mach Nat cfg2).after (okC cfg2) C sched

/-- Thread 1 prepares a push and is overtaken; its compare-exchange fails once. -/
def demo1 : List (Nat × Choice (Op Nat)) :=
  call 0 (.push true 1) 8 ++ call 1 (.push false 2) 5 ++ call 0 (.push false 3) 7 ++ go 1 4

/-- Thread 2 loads `tos` and is overtaken by a pop. -/
def demo2 : List (Nat × Choice (Op Nat)) := call 2 (.pop false) 1 ++ call 0 (.pop false) 9

/-- It reads garbage from the node, which is free now; its compare-exchange fails; then it gets the next element. -/
def demo3 : List (Nat × Choice (Op Nat)) := (2, .racy (some 7)) :: go 2 9

/-- A range push overtakes `consume_all_atomic_reversed`, which then gets all elements; the stack is empty afterwards. -/
def demo4 : List (Nat × Choice (Op Nat)) :=
  call 0 (.consumeAll true none) 2 ++ call 1 (.pushRange false [10, 11, 12]) 18 ++ go 0 36 ++ call 2 .empty 2 ++
  call 2 (.pop false) 3 ++ call 0 (.push true 5) 8

def history1 : History (Op Nat) (Ret Nat) :=
  [.inv 0 (.push true 1), .res 0 (.pushed true), .inv 1 (.push false 2), .inv 0 (.push false 3), .res 0 (.pushed true),
   .res 1 (.pushed true)]

def history2 : History (Op Nat) (Ret Nat) := [.inv 2 (.pop false), .inv 0 (.pop false), .res 0 (.popped (some 2))]

def history3 : History (Op Nat) (Ret Nat) := [.res 2 (.popped (some 3))]

def history4 : History (Op Nat) (Ret Nat) :=
  [.inv 0 (.consumeAll true none), .inv 1 (.pushRange false [10, 11, 12]), .res 1 (.count 3), .res 0 (.took [1, 10, 11, 12]),
   .inv 2 .empty, .res 2 (.isEmpty true), .inv 2 (.pop false), .res 2 (.popped none), .inv 0 (.push true 5), .res 0 (.pushed true)]

def C0 : Conf Nat := Conf.initial 1
def C1 : Conf Nat := after C0 demo1
def C2 : Conf Nat := after C1 demo2
def C3 : Conf Nat := after C2 demo3
def C4 : Conf Nat := after C3 demo4

theorem clean {C : Conf Nat} {sched h} (ht : ((mach Nat cfg2).runOk (okC cfg2) C [] sched).map (·.2) = some h) :
    MSteps (mach Nat cfg2) (okClean cfg2) C h (after C sched) := Mach.after_steps okC_clean ht

theorem clean1 : MSteps (mach Nat cfg2) (okClean cfg2) C0 history1 C1 := clean (sched := demo1) rfl
theorem clean2 : MSteps (mach Nat cfg2) (okClean cfg2) C1 history2 C2 := clean (sched := demo2) rfl
theorem clean3 : MSteps (mach Nat cfg2) (okClean cfg2) C2 history3 C3 := clean (sched := demo3) rfl
theorem clean4 : MSteps (mach Nat cfg2) (okClean cfg2) C3 history4 C4 := clean (sched := demo4) rfl

/-- All of it. -/
def history : History (Op Nat) (Ret Nat) := history1 ++ history2 ++ history3 ++ history4

theorem cleanExec : MSteps (mach Nat cfg2) (okClean cfg2) (Conf.initial 1) history C4 :=
  ((clean1.trans clean2).trans clean3).trans clean4

theorem freshOf {C C' : Conf Nat} {h} (hx : MSteps (mach Nat cfg2) (okClean cfg2) C h C') :
    MSteps (mach Nat cfg2) (okFresh cfg2) C h C' := hx.mono fun _ _ _ h => h.1

theorem exec2 : FreshExec cfg2 1 (history1 ++ history2) C2 := freshOf (clean1.trans clean2)

theorem exec : FreshExec cfg2 1 history C4 := freshOf cleanExec

theorem idle1 (t : Nat) : C1.pc t = .idle := by
  match t with
  | 0 | 1 | 2 => rfl
  | t + 3 => rfl

theorem idle4 (t : Nat) : C4.pc t = .idle := by
  match t with
  | 0 | 1 | 2 => rfl
  | t + 3 =>
    rw [C4, Mach.after_other (T := 3) rfl (by omega), C3, Mach.after_other (T := 3) rfl (by omega), C2,
      Mach.after_other (T := 3) rfl (by omega), C1, Mach.after_other (T := 3) rfl (by omega)]
    rfl

/-- C14, C21: three removals from the stack and four from the freelist, with two tags only -/
example : Linearizable (spec Nat false) history ∧ C4.s.tosVer = 3 ∧ C4.s.heap.poolVer = 4 :=
  ⟨stack_linearizable exec, rfl, rfl⟩

/-- C14: the pop that was overtaken -/
example : Returned history 6 9 (.popped (some 3)) := returned_of rfl

set_option maxRecDepth 2000 in
/-- C14: unlimited tags -/
example : Exec (⟨0, false⟩ : Cfg) 1 history ((mach Nat ⟨0, false⟩).after (fun _ _ _ => true) (Conf.initial 1)
    (demo1 ++ demo2 ++ demo3 ++ demo4)) := Mach.after_steps (fun _ _ _ _ => trivial) rfl

set_option maxRecDepth 2000 in
/-- C14: few removals -/
example : let C := (mach Nat ⟨8, false⟩).after (fun _ _ _ => true) (Conf.initial 1) (demo1 ++ demo2 ++ demo3 ++ demo4)
    Exec (⟨8, false⟩ : Cfg) 1 history C ∧ C.s.tosVer < 8 ∧ C.s.heap.poolVer < 8 :=
  ⟨Mach.after_steps (fun _ _ _ _ => trivial) rfl, by decide, by decide⟩

/-- C14: a single call between idle configurations -/
example : ∃ vs vs', Holds C1.s vs ∧ Holds (after C1 (call 0 (.pop false) 9)).s vs' ∧
    specStep false vs (.pop false) (.popped (some 2)) vs' :=
  (stack_solo_call (freshOf clean1) idle1 (t := 0) (freshOf (clean (sched := call 0 (.pop false) 9) rfl))).2

/-- C15: six elements were handed out, one is left -/
example : delivered history = [3, 2, 1, 10, 11, 12] ∧ accepted history = [1, 2, 3, 10, 11, 12, 5] ∧
    ∃ vs, Holds C4.s vs ∧ (delivered history ++ vs).Perm (accepted history) := by
  refine ⟨rfl, rfl, stack_conservation exec idle4 ?_⟩
  simp [history, history1, history2, history3, history4]

/-- C16 -/
example : (11, .pushRange false [10, 11, 12], .count 3) ∈ calls history := mem_calls.2 (outcome_iff.1 rfl)

/-- C17 -/
example : (10, .consumeAll true none, .took [1, 10, 11, 12]) ∈ calls history := mem_calls.2 (outcome_iff.1 rfl)

/-- C18: thread 2 is about to read the link of a node that is free meanwhile -/
example : derefs (C2.pc 2) = [1] ∧ InFree C2.s 1 ∧ C2.s.heap.data 1 = none :=
  ⟨rfl, ⟨[1], ⟨rfl, rfl⟩, by simp⟩, stack_free_nodes_dead exec2 ⟨[1], ⟨rfl, rfl⟩, by simp⟩⟩

/-- C18: then it holds another node, and is about to read its payload -/
example : let C := after C2 (demo3.take 4)
    uses (C.pc 2) = [2] ∧ HeldBy C.s.heap (C.pc 2) 2 := ⟨rfl, rfl⟩

/-- A stack of fixed size 1. -/
abbrev fix : Cfg := ⟨2, true⟩

def demoFix : List (Nat × Choice (Op Nat)) := call 0 (.push false 1) 8 ++ call 1 (.push true 2) 3

def historyFix : History (Op Nat) (Ret Nat) :=
  [.inv 0 (.push false 1), .res 0 (.pushed true), .inv 1 (.push true 2), .res 1 (.pushed false)]

def Cfix : Conf Nat := (mach Nat fix).after (okC fix) (Conf.initial 1) demoFix

theorem cleanFix : MSteps (mach Nat fix) (okClean fix) (Conf.initial 1) historyFix Cfix := Mach.after_steps (sched := demoFix) okC_clean rfl

/-- C19: the second push fails -/
example : Returned historyFix 2 3 (.pushed false) := returned_of rfl

/-- C43: the stack is full -/
example : Holds Cfix.s [1] ∧ ∀ t, Cfix.pc t = .idle := by
  refine ⟨⟨[0], ⟨rfl, rfl⟩, rfl⟩, fun t => ?_⟩
  match t with
  | 0 | 1 => rfl
  | t + 2 => rfl

/-- C19, C39: four nodes; three were requested by pushes -/
example : C4.s.heap.nalloc = 4 ∧ totalBudget false history = 5 := ⟨rfl, rfl⟩

/-- C20: at the end node 3 is in the stack, the others are free -/
example : Holds C4.s [5] ∧ InStack C4.s 3 ∧ InFree C4.s 0 ∧ InFree C4.s 1 ∧ InFree C4.s 2 :=
  ⟨⟨[3], ⟨rfl, rfl⟩, rfl⟩, ⟨[3], ⟨rfl, rfl⟩, by simp⟩, ⟨[1, 2, 0], ⟨rfl, rfl, rfl, rfl⟩, by simp⟩,
    ⟨[1, 2, 0], ⟨rfl, rfl, rfl, rfl⟩, by simp⟩, ⟨[1, 2, 0], ⟨rfl, rfl, rfl, rfl⟩, by simp⟩⟩

/-- C20: destruction of it -/
example : ∃ l, Destroys cfg2 0 C4.s [5] (some l) :=
  (stack_destructor_clean cleanExec idle4 ⟨[3], ⟨rfl, rfl⟩, rfl⟩ 0).1

/-- C22: the overtaken pop is pending; its snapshot is one increment old, and that is allowed with two tags -/
example : Pending (history1 ++ history2) 2 6 (.pop false) ∧ SnapFresh cfg2 C2.s (C2.pc 2) ∧
    (∃ o, C2.pc 2 = .ptest false o ∧ o.ver = 0) ∧ C2.s.tosVer = 1 :=
  ⟨pending_of rfl, .inr (by decide), ⟨_, rfl, rfl⟩, rfl⟩

/-- C22: its compare-exchange is going to fail -/
example : let C := after C2 (demo3.take 1)
    casTos (C.pc 2) = some ⟨some 1, 0⟩ ∧ C.s.tos = ⟨some 2, 1⟩ := ⟨rfl, rfl⟩

/-- C22: a compare-exchange on the freelist that is going to fail -/
example : let C := after C2 (demo3 ++ call 0 (.push true 8) 2 ++ call 1 (.push true 9) 3)
    casPool (C.pc 0) = some ⟨some 2, 1⟩ ∧ C.s.heap.pool = ⟨some 1, 0⟩ := ⟨rfl, rfl⟩

/-! Exceptions -/

theorem mayThrow {C : Conf Nat} {sched h} (ht : ((mach Nat cfg2).runOk (okB cfg2) C [] sched).map (·.2) = some h) :
    MSteps (mach Nat cfg2) (okFresh cfg2) C h ((mach Nat cfg2).after (okB cfg2) C sched) := Mach.after_steps okB_spec ht

/-- C23: the allocator throws -/
example : tstep cfg2 0 (Conf.initial 0 : Conf Nat).s (.alloc false (.one 1) (.test ⟨⟨none, 0⟩, 0⟩)) .throw =
    some ((Conf.initial 0 : Conf Nat).s, .ret .threw, none) := rfl

/-- C23: a copy constructor throws in a push; the node is lost, and only it -/
example : ∃ D D' : Nat → Prop, let C := after C1 (call 0 (.push false 4) 2)
    ExecD cfg2 1 (history1 ++ [.inv 0 (.push false 4)]) C D ∧ C.pc 0 = .constr false (.one 4) 3 ∧
    ExecD cfg2 1 (history1 ++ [.inv 0 (.push false 4)]) ⟨C.s, upd C.pc 0 (.ret .threw)⟩ D' ∧ ∀ x, D' x ↔ x = 3 := by
  obtain ⟨D₀, hx, h0⟩ := ExecD.of_clean clean1
  obtain ⟨D, hd, h1⟩ := hx.steps_clean (clean (sched := call 0 (.push false 4) 2) (h := [.inv 0 (.push false 4)]) rfl)
  obtain ⟨-, -, D', h2, h3⟩ := push_copy_throw (m := 3) hd (t := 0) (b := false) (v := 4) rfl
    (s' := (after C1 (call 0 (.push false 4) 2)).s) rfl
  exact ⟨D, D', hd, rfl, h2, fun x => by rw [h3]; simp [h1, h0]⟩

/-- C23: the copy constructor throws at the second element of a range: the thread has a prepared node and the one under
construction -/
example : ∃ D : Nat → Prop, let C := after C1 (call 0 (.pushRange false [4, 6]) 6)
    ExecD cfg2 1 (history1 ++ [.inv 0 (.pushRange false [4, 6])]) C D ∧
    C.pc 0 = .constr false (.range [4] (some (3, 3)) 6 []) 4 ∧ (tstep cfg2 0 C.s (C.pc 0) .throw).isSome := by
  obtain ⟨D₀, hx, h0⟩ := ExecD.of_clean clean1
  obtain ⟨D, hd, h1⟩ := hx.steps_clean (clean (sched := call 0 (.pushRange false [4, 6]) 6)
    (h := [.inv 0 (.pushRange false [4, 6])]) rfl)
  exact ⟨D, hd, rfl, rfl⟩

/-- C23: a functor that is going to throw -/
example : ∃ D : Nat → Prop, let C := after C1 (call 0 (.pop true) 3)
    ExecD cfg2 1 (history1 ++ [.inv 0 (.pop true)]) C D ∧ C.pc 0 = .papply true 1 ∧ C.s.heap.data 1 = some 2 := by
  obtain ⟨D₀, hx, h0⟩ := ExecD.of_clean clean1
  obtain ⟨D, hd, h1⟩ := hx.steps_clean (clean (sched := call 0 (.pop true) 3) (h := [.inv 0 (.pop true)]) rfl)
  exact ⟨D, hd, rfl, rfl⟩

/-- C24: a mixed execution; unsynchronized operations continue where the threads stopped -/
theorem mixed1 : MixedExec cfg2 1 history1 C1 := by
  have key : ∀ {h} {C : Conf Nat}, FreshExec cfg2 1 h C → MixedExec cfg2 1 h C := by
    intro h C hx
    induction hx with
    | refl => exact .init
    | step _ hs hok ih => exact .step ih hs hok
  exact key (freshOf clean1)

example : ((C1.s.unsyncs cfg2 [.pop false, .push false 7, .reserve 2, .pushRange false [8, 9], .pop false]).map (·.2)) =
    some [.popped (some 2), .pushed true, .reserved, .count 2, .popped (some 9)] := rfl

example : ∃ s' r, C1.s.unsync cfg2 (.pop false) = some (s', r) ∧
    MixedExec cfg2 1 (history1 ++ [.inv 5 (.pop false), .res 5 r]) ⟨s', C1.pc⟩ := by
  obtain ⟨s', r, σ', h1, -, -, -, -, h2⟩ := unsync_spec mixed1 idle1 (σ := [2, 3, 1]) ⟨[1, 2, 0], ⟨rfl, rfl, rfl, rfl⟩, rfl⟩
    (o := .pop false) rfl
  exact ⟨s', r, h1, h2 5⟩

/-- C38: two nodes are reserved; then two pushes succeed although they are bounded, without a request for memory -/
example : let C := after C1 (call 0 (.reserve 2) 10)
    let C' := after C (call 0 (.push true 4) 8 ++ call 1 (.push true 5) 8)
    MSteps (mach Nat cfg2) (okRsv cfg2) C1 [.inv 0 (.reserve 2), .res 0 .reserved] C ∧
    MSteps (mach Nat cfg2) (okFresh cfg2) C
      [.inv 0 (.push true 4), .res 0 (.pushed true), .inv 1 (.push true 5), .res 1 (.pushed true)] C' ∧
    C1.s.heap.nalloc = 3 ∧ C.s.heap.nalloc = 5 ∧ C'.s.heap.nalloc = 5 ∧ FreeAtLeast C.s 2 :=
  ⟨Mach.after_steps okC_rsv rfl, Mach.after_steps okC_fresh rfl, rfl, rfl, rfl, ⟨[4, 3], ⟨rfl, rfl, rfl⟩, by decide⟩⟩

/-- C40 -/
example : Returned history 16 17 (.popped none) := returned_of rfl

/-- C44: 41 steps of three threads, one of them failed spuriously -/
example : ∃ C, Counted (mach Nat cfg2) (okFresh cfg2) spurious 3 C0 (history1 ++ history2) C 40 1 :=
  ⟨_, Counted.run okC_fresh .refl (sched := demo1.take 25 ++ [(1, .spur), (1, .go)] ++ demo1.drop 25 ++ demo2) rfl⟩

end Verif.Stack.Ex
