import Verif.After
import Verif.Queue.Destroy
import Verif.Queue.Unsync
import Verif.Queue.Empty
import Verif.Queue.Progress
import Verif.Queue.Reserve
import Verif.Queue.Solo
import Verif.Queue.Props

/-!
# Concrete executions that meet the hypotheses of the theorems about `queue`

Three values of the tag only (`M = 3`), and more changes of the words: tags do wrap, but not within one call.
-/

namespace Verif.Queue.Ex
open Lin

def aFreshB (cfg : Cfg) (h : Heap Nat) : APC → Bool
  | .cas o _ => decide (h.poolVer < o.ver + cfg.M)
  | _ => true

/-- `fresh`, computed. -/
def freshB (cfg : Cfg) (s : St Nat) : PC Nat → Bool
  | .alloc _ _ a => aFreshB cfg s.heap a
  | .pCheck _ T _ | .swing _ T _ => decide (s.tailVer < T.ver + cfg.M)
  | .pCas _ T N => match T.v.ptr with
    | none => true
    | some x => decide (s.heap.nver x < N.ver + cfg.M)
  | .cCheck H _ _ | .cCas H _ _ => decide (s.headVer < H.ver + cfg.M)
  | _ => true

theorem freshB_spec {cfg : Cfg} {s : St Nat} {p} (h : freshB cfg s p = true) : fresh cfg s p := by
  cases p with
  | alloc b v a => cases a <;> simp_all [freshB, fresh, aFreshB, aFresh]
  | pCheck | swing | cCheck | cCas => right; simpa [freshB] using h
  | pCas n T N =>
    intro x hx
    simp only [freshB, hx, decide_eq_true_eq] at h
    exact .inr h
  | _ => trivial

def okB (cfg : Cfg) (s : St Nat) (p : PC Nat) (_ : QChoice Nat) : Bool := freshB cfg s p

theorem okB_spec {cfg : Cfg} (s : St Nat) (p ch) (h : okB cfg s p ch = true) : okFresh cfg s p ch := freshB_spec h

/-- Without exceptions. -/
def okC (cfg : Cfg) (s : St Nat) (p : PC Nat) (ch : QChoice Nat) : Bool :=
  freshB cfg s p && !leaky p ch && match ch with
    | .base .throw => false
    | _ => true

theorem okC_fresh {cfg : Cfg} (s : St Nat) (p ch) (h : okC cfg s p ch = true) : okFresh cfg s p ch := by
  simp only [okC, Bool.and_eq_true] at h; exact freshB_spec h.1.1

theorem okC_clean {cfg : Cfg} (s : St Nat) (p ch) (h : okC cfg s p ch = true) : okClean cfg s p ch := by
  simp only [okC, Bool.and_eq_true, Bool.not_eq_true'] at h; exact ⟨freshB_spec h.1.1, h.1.2⟩

theorem okC_rsv {cfg : Cfg} (s : St Nat) (p ch) (h : okC cfg s p ch = true) : okRsv cfg s p ch := by
  refine ⟨okC_fresh _ _ _ h, ?_⟩
  rintro k - rfl
  simp [okC] at h

/-- `k` ordinary steps of thread `t`. -/
def go (t k : Nat) : List (Nat × QChoice Nat) := List.replicate k (t, .base .go)

/-- Thread `t` calls `o` and makes `k` steps. -/
def call (t : Nat) (o : Op Nat) (k : Nat) : List (Nat × QChoice Nat) := (t, .base (.call o)) :: go t k

abbrev cfg3 : Cfg := ⟨3, false⟩

abbrev after (C : Conf Nat) (sched : List (Nat × QChoice Nat)) : Conf Nat := (mach Nat cfg3).after (okC cfg3) C sched

/-- Thread 0 links its node but does not advance `tail_`; thread 1 does that for it before it links its own node. -/
def demo1 : List (Nat × QChoice Nat) := call 0 (.push true 1) 10 ++ call 1 (.push false 2) 15 ++ go 0 2

/-- Thread 2 is about to read the payload of the first element; two pops overtake it. -/
def demo2 : List (Nat × QChoice Nat) := call 2 .pop 4 ++ call 0 .pop 11 ++ call 1 .pop 11

/-- It reads garbage from the node, which is free now; its compare-exchange fails; then it sees an empty queue. -/
def demo3 : List (Nat × QChoice Nat) := (2, .garbage 99) :: go 2 6

/-- Thread 2 has read `head_` and `tail_` and is overtaken by a pop; it reads a torn link word; its check fails. -/
def demo4 : List (Nat × QChoice Nat) :=
  call 0 (.push true 5) 12 ++ call 1 (.push false 6) 12 ++ call 2 .pop 2 ++ call 0 .pop 11 ++
  [(2, .torn ⟨some 17, 4⟩)] ++ go 2 12 ++ call 1 .empty 3 ++ [(1, .base (.call .empty)), (1, .base .spur)] ++ go 1 2 ++
  call 0 (.push true 7) 12

def history1 : History (Op Nat) (Ret Nat) :=
  [.inv 0 (.push true 1), .inv 1 (.push false 2), .res 1 (.pushed true), .res 0 (.pushed true)]

def history2 : History (Op Nat) (Ret Nat) :=
  [.inv 2 .pop, .inv 0 .pop, .res 0 (.popped (some 1)), .inv 1 .pop, .res 1 (.popped (some 2))]

def history3 : History (Op Nat) (Ret Nat) := [.res 2 (.popped none)]

def history4 : History (Op Nat) (Ret Nat) :=
  [.inv 0 (.push true 5), .res 0 (.pushed true), .inv 1 (.push false 6), .res 1 (.pushed true), .inv 2 .pop, .inv 0 .pop,
   .res 0 (.popped (some 5)), .res 2 (.popped (some 6)), .inv 1 .empty, .res 1 (.isEmpty true), .inv 1 .empty,
   .res 1 (.isEmpty true), .inv 0 (.push true 7), .res 0 (.pushed true)]

def C0 : Conf Nat := Conf.initial cfg3 1
def C1 : Conf Nat := after C0 demo1
def C2 : Conf Nat := after C1 demo2
def C3 : Conf Nat := after C2 demo3
def C4 : Conf Nat := after C3 demo4

theorem clean {C : Conf Nat} {sched h} (ht : ((mach Nat cfg3).runOk (okC cfg3) C [] sched).map (·.2) = some h) :
    MSteps (mach Nat cfg3) (okClean cfg3) C h (after C sched) := Mach.after_steps okC_clean ht

theorem clean1 : MSteps (mach Nat cfg3) (okClean cfg3) C0 history1 C1 := clean (sched := demo1) rfl
theorem clean2 : MSteps (mach Nat cfg3) (okClean cfg3) C1 history2 C2 := clean (sched := demo2) rfl
theorem clean3 : MSteps (mach Nat cfg3) (okClean cfg3) C2 history3 C3 := clean (sched := demo3) rfl
theorem clean4 : MSteps (mach Nat cfg3) (okClean cfg3) C3 history4 C4 := clean (sched := demo4) rfl

/-- All of it. -/
def history : History (Op Nat) (Ret Nat) := history1 ++ history2 ++ history3 ++ history4

theorem cleanExec : MSteps (mach Nat cfg3) (okClean cfg3) (Conf.initial cfg3 1) history C4 :=
  ((clean1.trans clean2).trans clean3).trans clean4

theorem freshOf {C C' : Conf Nat} {h} (hx : MSteps (mach Nat cfg3) (okClean cfg3) C h C') :
    MSteps (mach Nat cfg3) (okFresh cfg3) C h C' := hx.mono fun _ _ _ h => h.1

theorem exec2 : FreshExec cfg3 1 (history1 ++ history2) C2 := freshOf (clean1.trans clean2)

theorem exec : FreshExec cfg3 1 history C4 := freshOf cleanExec

theorem idle1 (t : Nat) : C1.pc t = .idle := by
  match t with
  | 0 | 1 | 2 => rfl
  | t + 3 => rfl

theorem idle4 (t : Nat) : C4.pc t = .idle := by
  match t with
  | 0 | 1 | 2 => rfl
  | t + 3 =>
    rw [C4, Mach.after_other (T := 3) rfl (by omega), C3, Mach.after_other (T := 3) rfl (by omega), C2,
      Mach.after_other (T := 3) rfl (by omega), C1, Mach.after_other (T := 3) rfl (by omega)]
    rfl

/-- C26: four removals from the queue, five advances of the tail, with three tags only -/
example : Linearizable (spec Nat false) history ∧ C4.s.headVer = 4 ∧ C4.s.tailVer = 5 ∧ C4.s.heap.poolVer = 5 ∧
    C4.s.heap.nver 0 = 5 := ⟨queue_linearizable exec, rfl, rfl, rfl, rfl⟩

set_option maxRecDepth 2000 in
/-- C26: unlimited tags -/
example : Exec (⟨0, false⟩ : Cfg) 1 history ((mach Nat ⟨0, false⟩).after (fun _ _ _ => true) (Conf.initial ⟨0, false⟩ 1)
    (demo1 ++ demo2 ++ demo3 ++ demo4)) := Mach.after_steps (fun _ _ _ _ => trivial) rfl

set_option maxRecDepth 2000 in
/-- C26: few changes -/
example : let C := (mach Nat ⟨16, false⟩).after (fun _ _ _ => true) (Conf.initial ⟨16, false⟩ 1) (demo1 ++ demo2 ++ demo3 ++ demo4)
    Exec (⟨16, false⟩ : Cfg) 1 history C ∧ C.s.headVer < 16 ∧ C.s.tailVer < 16 ∧ C.s.heap.poolVer < 16 ∧
    ∀ x, x < C.s.heap.nalloc → C.s.heap.nver x < 16 :=
  ⟨Mach.after_steps (fun _ _ _ _ => trivial) rfl, by decide, by decide, by decide, by decide⟩

/-- C26: a single call between idle configurations -/
example : ∃ vs vs', Holds C1.s vs ∧ Holds (after C1 (call 0 .pop 11)).s vs' ∧ specStep false vs .pop (.popped (some 1)) vs' :=
  (queue_solo_call (freshOf clean1) idle1 (t := 0) (freshOf (clean (sched := call 0 .pop 11) rfl))).2

/-- C27: four elements were handed out, one is left -/
example : delivered history = [1, 2, 6, 5] ∧ accepted history = [1, 2, 5, 6, 7] ∧
    ∃ vs, Holds C4.s vs ∧ (delivered history ++ vs).Perm (accepted history) :=
  ⟨rfl, rfl, queue_conservation exec idle4⟩

/-- C27: 5 was pushed before 6 -/
example : Returned history 10 11 (.pushed true) ∧ history[12]? = some (.inv 1 (.push false 6)) ∧
    Returned history 15 16 (.popped (some 5)) ∧ Returned history 14 17 (.popped (some 6)) :=
  ⟨returned_of rfl, rfl, returned_of rfl, returned_of rfl⟩

/-- C27: a step that changes the contents -/
example : let C := after C0 (call 0 (.push true 1) 9)
    Holds C.s [] ∧ Holds (after C (go 0 1)).s [1] :=
  ⟨⟨1, [], rfl, rfl, rfl⟩, ⟨1, [0], rfl, ⟨rfl, rfl⟩, rfl⟩⟩

/-- C28: thread 2 is about to read the payload of a node that is free meanwhile -/
example : derefs (C2.pc 2) = [0] ∧ InFree C2.s 0 ∧ C2.s.heap.data 0 = none :=
  ⟨rfl, ⟨[0, 1], ⟨rfl, rfl, rfl⟩, by simp⟩, queue_free_nodes_dead exec2 ⟨[0, 1], ⟨rfl, rfl, rfl⟩, by simp⟩⟩

/-- C28: a thread that holds a node and is about to write to it -/
example : let C := after C1 (call 0 .pop 6)
    writes (C.pc 0) = [1] ∧ HeldBy (C.pc 0) 1 ∧ InQueue C.s 0 := ⟨rfl, rfl, ⟨[0, 2], ⟨rfl, rfl, rfl⟩, by simp⟩⟩

/-- C28: `tail_` lags behind -/
example : let C := after C0 (call 0 (.push true 1) 10)
    C.s.tail.ptr = some 1 ∧ (C.s.heap.next 1).ptr = some 0 ∧ (C.s.heap.next 0).ptr = none := ⟨rfl, rfl, rfl⟩

/-- A queue of fixed size 1. -/
abbrev fix : Cfg := ⟨3, true⟩

def demoFix : List (Nat × QChoice Nat) := call 0 (.push false 1) 12 ++ call 1 (.push true 2) 3

def historyFix : History (Op Nat) (Ret Nat) :=
  [.inv 0 (.push false 1), .res 0 (.pushed true), .inv 1 (.push true 2), .res 1 (.pushed false)]

def Cfix : Conf Nat := (mach Nat fix).after (okC fix) (Conf.initial fix 1) demoFix

theorem cleanFix : MSteps (mach Nat fix) (okClean fix) (Conf.initial fix 1) historyFix Cfix :=
  Mach.after_steps (sched := demoFix) okC_clean rfl

/-- C19: the second push fails -/
example : Returned historyFix 2 3 (.pushed false) := returned_of rfl

/-- C29: the queue is full -/
example : Holds Cfix.s [1] ∧ ∀ t, Cfix.pc t = .idle := by
  refine ⟨⟨1, [0], rfl, ⟨rfl, rfl⟩, rfl⟩, fun t => ?_⟩
  match t with
  | 0 | 1 => rfl
  | t + 2 => rfl

/-- C29: after a pop there is room for one more -/
example : let C := (mach Nat fix).after (okC fix) Cfix (call 1 .pop 11)
    Holds C.s [] ∧ MSteps (mach Nat fix) (okFresh fix) C [.inv 0 (.push false 9), .res 0 (.pushed true)]
      ((mach Nat fix).after (okC fix) C (call 0 (.push false 9) 12)) :=
  ⟨⟨0, [], rfl, rfl, rfl⟩, Mach.after_steps okC_fresh rfl⟩

/-- C19, C39: three nodes; one was requested by a push -/
example : C4.s.heap.nalloc = 3 ∧ totalBudget false history = 2 := ⟨rfl, rfl⟩

/-- C20: at the end node 1 is the dummy, node 0 the element, node 2 is free -/
example : Holds C4.s [7] ∧ InQueue C4.s 1 ∧ InQueue C4.s 0 ∧ InFree C4.s 2 :=
  ⟨⟨1, [0], rfl, ⟨rfl, rfl⟩, rfl⟩, ⟨[1, 0], ⟨rfl, rfl, rfl⟩, by simp⟩, ⟨[1, 0], ⟨rfl, rfl, rfl⟩, by simp⟩,
    ⟨[2], ⟨rfl, rfl⟩, by simp⟩⟩

/-- C20: destruction of it -/
example : ∃ l, Destroys cfg3 C4.s [7] (some l) :=
  (queue_destructor_clean cleanExec idle4 ⟨1, [0], rfl, ⟨rfl, rfl⟩, rfl⟩).1

/-- C20: a copy constructor throws, and the node it was meant for is dropped -/
example : ∃ D D' : Nat → Prop, let C := after C1 (call 0 (.push false 4) 2)
    ExecD cfg3 1 (history1 ++ [.inv 0 (.push false 4)]) C D ∧ C.pc 0 = .constr false 4 3 ∧
    ExecD cfg3 1 (history1 ++ [.inv 0 (.push false 4)]) ⟨C.s, upd C.pc 0 (.ret .threw)⟩ D' ∧ D' 3 ∧ ¬ D' 0 := by
  obtain ⟨D₀, hx, h0⟩ := ExecD.of_clean clean1
  obtain ⟨D, hd, h1⟩ := hx.steps_clean (clean (sched := call 0 (.push false 4) 2) (h := [.inv 0 (.push false 4)]) rfl)
  have := hd.step (t := 0) (ch := .base .throw) (s' := (after C1 (call 0 (.push false 4) 2)).s) (p' := .ret .threw) (e := none)
    rfl trivial
  simp only [Option.toList, List.append_nil] at this
  refine ⟨D, _, hd, rfl, this, .inr ⟨rfl, rfl, id⟩, ?_⟩
  rintro (h | h)
  · exact h0 _ ((h1 _).1 h)
  · exact absurd h.2.1 (by decide : ¬ (0 = 3))

/-- C30, C41: `empty` on a queue of two elements, in both orders of evaluation -/
example : MSteps (mach Nat cfg3) (okFresh cfg3) C1
    [.inv 2 .empty, .res 2 (.isEmpty false), .inv 0 .empty, .res 0 (.isEmpty false)]
    (after C1 (call 2 .empty 3 ++ [(0, .base (.call .empty)), (0, .base .spur)] ++ go 0 2)) := freshOf (clean rfl)

example : Holds C1.s [1, 2] := ⟨1, [0, 2], rfl, ⟨rfl, rfl, rfl⟩, rfl⟩

/-- C31: a mixed execution; unsynchronized operations continue where the threads stopped -/
theorem mixed1 : MixedExec cfg3 1 history1 C1 := by
  have key : ∀ {h} {C : Conf Nat}, FreshExec cfg3 1 h C → MixedExec cfg3 1 h C := by
    intro h C hx
    induction hx with
    | refl => exact .init
    | step _ hs hok ih => exact .step ih hs hok
  exact key (freshOf clean1)

example : ((C1.s.unsyncs cfg3 2 [.pop, .push false 7, .reserve 2, .pop, .pop, .pop]).map (·.2)) =
    some [.popped (some 1), .pushed true, .reserved, .popped (some 2), .popped (some 7), .popped none] := rfl

example : ∃ s' r, C1.s.unsync cfg3 2 .pop = some (s', r) ∧ MixedExec cfg3 1 (history1 ++ [.inv 5 .pop, .res 5 r]) ⟨s', C1.pc⟩ := by
  obtain ⟨s', r, σ', h1, -, -, -, -, h2⟩ := unsync_spec mixed1 idle1 (σ := [1, 2]) ⟨1, [0, 2], rfl, ⟨rfl, rfl, rfl⟩, rfl⟩
    (o := .pop) trivial (fuel := 2) (by decide)
  exact ⟨s', r, h1, h2 5⟩

/-- C32: the overtaken pop is pending; its copy of `head_` is two increments old, and that is allowed with three tags -/
example : Pending (history1 ++ history2) 2 4 .pop ∧ SnapFresh cfg3 C2.s (C2.pc 2) ∧
    (∃ H, C2.pc 2 = .cData H 0 ∧ H.ver = 0) ∧ C2.s.headVer = 2 :=
  ⟨pending_of rfl, .inr (by decide), ⟨_, rfl, rfl⟩, rfl⟩

/-- C32: its compare-exchange is going to fail -/
example : let C := after C2 (demo3.take 1)
    casHead (C.pc 2) = some ⟨some 1, 0⟩ ∧ C.s.head = ⟨some 2, 2⟩ := ⟨rfl, rfl⟩

/-- C32: a compare-exchange on `tail_` that is going to fail: another push has advanced it already -/
example : let C := after C0 (demo1.take 27)
    casTail (C.pc 0) = some ⟨some 1, 0⟩ ∧ C.s.tail = ⟨some 2, 2⟩ := ⟨rfl, rfl⟩

/-- C32: a compare-exchange on a link that is going to fail -/
example : let C := after C0 (call 1 (.push false 2) 9 ++ call 0 (.push false 1) 9)
    (∃ T N, C.pc 1 = .pCas 0 T N ∧ T.v.ptr = some 1 ∧ N.v = ⟨none, 0⟩) ∧ C.s.heap.next 1 = ⟨some 2, 1⟩ :=
  ⟨⟨_, _, rfl, rfl, rfl⟩, rfl⟩

/-- C32: a compare-exchange on the freelist that is going to fail -/
example : let C := after C3 (call 0 (.push true 8) 2 ++ call 1 (.push true 9) 3)
    casPool (C.pc 0) = some ⟨some 0, 2⟩ ∧ C.s.heap.pool = ⟨some 1, 0⟩ := ⟨rfl, rfl⟩

/-- C38: two nodes are reserved; then two pushes succeed although they are bounded, without a request for memory -/
example : let C := after C1 (call 0 (.reserve 2) 10)
    let C' := after C (call 0 (.push true 4) 12 ++ call 1 (.push true 5) 12)
    MSteps (mach Nat cfg3) (okRsv cfg3) C1 [.inv 0 (.reserve 2), .res 0 .reserved] C ∧
    MSteps (mach Nat cfg3) (okFresh cfg3) C
      [.inv 0 (.push true 4), .res 0 (.pushed true), .inv 1 (.push true 5), .res 1 (.pushed true)] C' ∧
    C1.s.heap.nalloc = 3 ∧ C.s.heap.nalloc = 5 ∧ C'.s.heap.nalloc = 5 ∧ FreeAtLeast C.s 2 :=
  ⟨Mach.after_steps okC_rsv rfl, Mach.after_steps okC_fresh rfl, rfl, rfl, rfl, ⟨[4, 3], ⟨rfl, rfl, rfl⟩, by decide⟩⟩

/-- C40 -/
example : Returned history 4 9 (.popped none) := returned_of rfl

set_option maxRecDepth 2000 in
/-- C45: the first two parts and one spurious failure of a compare-exchange -/
example : ∃ C, Counted (mach Nat cfg3) (okFresh cfg3) spurious 3 C0 (history1 ++ history2) C 61 1 :=
  ⟨_, Counted.run okC_fresh .refl (sched := demo1.take 10 ++ [(0, .base .spur)] ++ go 0 3 ++ demo1.drop 10 ++ demo2) rfl⟩

end Verif.Queue.Ex
