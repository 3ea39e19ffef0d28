import Verif.ClientRun
import Verif.Stack.Consume
import Verif.Stack.Examples
import Verif.Stack.WeakExamples

/-!
# Stack: `consume_all` is not atomic; concrete executions with `consume_all`
-/

namespace Verif.Stack.CEx
open Lin Ex

/-- The restriction on steps, computed. -/
def cokB (cfg : Cfg) (s : St Nat) : CPC (PC Nat) (CRet (Ret Nat) Nat) (CLocal (Op Nat) (Ret Nat) Nat) →
    CChoice (Choice (Op Nat)) (COp (Op Nat)) → Bool
  | .within _ p, .inner ch => okB cfg s p ch
  | .between l, .go => match (routine Nat).next l with
    | .inl o => okB cfg s .idle (.call o)
    | .inr _ => true
  | _, _ => true

theorem cokB_spec {cfg : Cfg} (s : St Nat) (p ch) (h : cokB cfg s p ch = true) : cok cfg s p ch := by
  cases p <;> cases ch <;> first | trivial | skip
  · intro o ho
    simp only [cokB, ho] at h
    exact okB_spec _ _ _ h
  · exact okB_spec _ _ _ h

/-- A call of `consume_one` or `push` that takes `k` steps. -/
def ins (t k : Nat) : List (Nat × CChoice (Choice (Op Nat)) (COp (Op Nat))) := (t, .go) :: List.replicate k (t, .inner .go)

/-- Thread `t` calls `o`, which takes `k` steps. -/
def prim (t : Nat) (o : Op Nat) (k : Nat) : List (Nat × CChoice (Choice (Op Nat)) (COp (Op Nat))) :=
  (t, .call (.prim o)) :: ins t k ++ [(t, .go), (t, .go)]

/-- Thread 1 is in `consume_all` and takes 1; thread 0 finds the stack empty and pushes 2; thread 1 takes 2 as well. -/
def race : List (Nat × CChoice (Choice (Op Nat)) (COp (Op Nat))) :=
  prim 0 (.push false 1) 8 ++ (1, .call (.all none)) :: ins 1 9 ++ prim 0 (.pop false) 3 ++ prim 0 (.push false 2) 8 ++
  ins 1 9 ++ ins 1 3 ++ [(1, .go), (1, .go)]

def raceTrace : CTrace Nat :=
  [.inv 0 (.inl (.prim (.push false 1))), .inv 0 (.inr (.push false 1)), .res 0 (.inr (.pushed true)), .res 0 (.inl (.prim (.pushed true))),
   .inv 1 (.inl (.all none)), .inv 1 (.inr (.pop false)), .res 1 (.inr (.popped (some 1))),
   .inv 0 (.inl (.prim (.pop false))), .inv 0 (.inr (.pop false)), .res 0 (.inr (.popped none)), .res 0 (.inl (.prim (.popped none))),
   .inv 0 (.inl (.prim (.push false 2))), .inv 0 (.inr (.push false 2)), .res 0 (.inr (.pushed true)), .res 0 (.inl (.prim (.pushed true))),
   .inv 1 (.inr (.pop false)), .res 1 (.inr (.popped (some 2))), .inv 1 (.inr (.pop false)), .res 1 (.inr (.popped none)),
   .res 1 (.inl (.consumed [1, 2] 2))]

def R1 : CConf Nat := (cmach Nat cfg2).after (cokB cfg2) (outside (Conf.initial 3 : Conf Nat).s) race

theorem race_exec : CExec cfg2 3 raceTrace R1 := Mach.after_steps cokB_spec (sched := race) rfl

theorem race_out (t : Nat) : R1.pc t = .out := by
  match t with
  | 0 | 1 => rfl
  | t + 2 => rw [R1, Mach.after_other (T := 2) rfl (by omega)]; rfl

/-- What an atomic `consume_all` (such as `consume_all_atomic`, stack.hpp:609-685) does: take all elements at one instant. -/
def drainStep (fixed : Bool) (σ : List Nat) : COp (Op Nat) → CRet (Ret Nat) Nat → List Nat → Prop
  | .prim o, .prim r, σ' => specStep fixed σ o r σ'
  | .all none, .consumed vs m, σ' => vs = σ ∧ m = σ.length ∧ σ' = []
  | _, _, _ => False

def drainSpec (fixed : Bool) : Spec (COp (Op Nat)) (CRet (Ret Nat) Nat) := ⟨List Nat, [], drainStep fixed⟩

def drainNext (fixed : Bool) (σ : List Nat) : COp (Op Nat) → CRet (Ret Nat) Nat → Option (List Nat)
  | .prim o, .prim r => WEx.specNext fixed σ o r
  | .all none, .consumed vs m => if vs = σ ∧ m = σ.length then some [] else none
  | _, _ => none

theorem drainNext_spec (fixed : Bool) (σ o r σ') (h : drainStep fixed σ o r σ') : drainNext fixed σ o r = some σ' := by
  unfold drainStep at h
  split at h
  · exact WEx.specNext_spec fixed _ _ _ _ h
  · obtain ⟨rfl, rfl, rfl⟩ := h; simp [drainNext]
  · exact h.elim

/-- **C50 (stack: what does not hold).** `consume_all` is not atomic, unlike `consume_all_atomic`: there is an execution, complete and
without exceptions, in which it returns elements that were never in the stack at the same time; its calls cannot be ordered such that
`consume_all` takes the contents of the stack at one instant. -/
theorem stack_consume_all_not_atomic :
    ∃ (tr : CTrace Nat) (C : CConf Nat), CExec cfg2 3 tr C ∧ (∀ t, C.pc t = .out) ∧
      ¬ Linearizable (drainSpec cfg2.fixed) (outer tr) :=
  ⟨_, _, race_exec, race_out, not_linearizable (drainNext false) (drainNext_spec false) (by rfl)⟩

/-- Nothing is wrong with `drainSpec`: without the pop of thread 0 the same calls are linearizable, with the elements in stack order. -/
example : Linearizable (drainSpec false) [.inv 0 (.prim (.push false 1)), .res 0 (.prim (.pushed true)), .inv 1 (.all none),
    .inv 0 (.prim (.push false 2)), .res 0 (.prim (.pushed true)), .res 1 (.consumed [2, 1] 2)] := by
  have h0 := CReach.init (S := drainSpec false)
  have h1 := h0.move (.inv (t := 0) (o := .prim (.push false 1)) rfl)
  have h2 := h1.move (.lin (t := 0) (r := .prim (.pushed true)) (σ' := [1]) rfl (by exact Or.inl ⟨rfl, rfl⟩))
  have h3 := h2.move (.res (t := 0) rfl)
  have h4 := h3.move (.inv (t := 1) (o := .all none) rfl)
  have h5 := h4.move (.inv (t := 0) (o := .prim (.push false 2)) rfl)
  have h6 := h5.move (.lin (t := 0) (r := .prim (.pushed true)) (σ' := [2, 1]) rfl (by exact Or.inl ⟨rfl, rfl⟩))
  have h7 := h6.move (.res (t := 0) rfl)
  have h8 := h7.move (.lin (t := 1) (r := .consumed [2, 1] 2) (σ' := []) rfl (by exact ⟨rfl, rfl, rfl⟩))
  exact (h8.move (.res (t := 1) rfl)).linearizable

/-- The call of `consume_all` in this execution. -/
theorem race_call : RoutineCall raceTrace 1 4 19 (.all none) (.consumed [1, 2] 2) :=
  routineCall_of (by omega) rfl rfl rfl

/-- The calls made in it. -/
example : ofThread 1 (inner (strictly raceTrace 4 19)) =
    callEvents 1 [(.pop false, .popped (some 1)), (.pop false, .popped (some 2)), (.pop false, .popped none)] := rfl

example : ∃ k C₁, 4 < k ∧ k ≤ 19 ∧ CExec cfg2 3 (raceTrace.take k) C₁ ∧ Holds C₁.s [] := by
  obtain ⟨_, k, C₁, h1, h2, h3, _, h4⟩ := stack_consume_all_was_empty race_exec race_call
  exact ⟨k, C₁, h1, h2, h3, h4⟩

/-- Both elements accepted were given to the functor, and the stack is empty. -/
example : ((calls (outer raceTrace)).flatMap fun x => takenBy x.2.1 x.2.2) = [1, 2] ∧
    ((calls (outer raceTrace)).flatMap fun x => givenBy x.2.1 x.2.2) = [1, 2] ∧ Holds R1.s [] := by
  refine ⟨rfl, rfl, ?_⟩
  obtain ⟨vs, h1, h2⟩ := stack_consume_conservation race_exec race_out
    (by intro t rev k h; simp [outer, outer?, raceTrace] at h)
  have h3 : ([1, 2] ++ vs).length = [1, 2].length := h2.length_eq
  have : vs = [] := by simpa using h3
  rw [← this]; exact h1

/-! ### A functor that throws -/

def thrown : List (Nat × CChoice (Choice (Op Nat)) (COp (Op Nat))) :=
  prim 0 (.push false 1) 8 ++ prim 0 (.push false 2) 8 ++ prim 0 (.push false 3) 8

def R2 : CConf Nat := (cmach Nat cfg2).after (cokB cfg2) (outside (Conf.initial 3 : Conf Nat).s) thrown

/-- `consume_all` with a functor that throws in its second call. -/
def thrown2 : List (Nat × CChoice (Choice (Op Nat)) (COp (Op Nat))) :=
  (0, .call (.all (some 1))) :: ins 0 9 ++ ins 0 5 ++ [(0, .go), (0, .go)]

def R3 : CConf Nat := (cmach Nat cfg2).after (cokB cfg2) R2 thrown2

def trace2 : CTrace Nat := [1, 2, 3].flatMap fun v =>
  [.inv 0 (.inl (.prim (.push false v))), .inv 0 (.inr (.push false v)), .res 0 (.inr (.pushed true)), .res 0 (.inl (.prim (.pushed true)))]

def trace3 : CTrace Nat :=
  [.inv 0 (.inl (.all (some 1))), .inv 0 (.inr (.pop false)), .res 0 (.inr (.popped (some 3))), .inv 0 (.inr (.pop true)),
   .res 0 (.inr (.popped (some 2))), .res 0 (.inl (.raised [3, 2]))]

theorem exec2 : CExec cfg2 3 trace2 R2 := Mach.after_steps cokB_spec (sched := thrown) rfl
theorem steps3 : MSteps (cmach Nat cfg2) (cok cfg2) R2 trace3 R3 := Mach.after_steps cokB_spec (sched := thrown2) rfl
theorem exec3 : CExec cfg2 3 (trace2 ++ trace3) R3 := exec2.trans steps3

theorem out2 (t : Nat) : R2.pc t = .out := by
  match t with
  | 0 => rfl
  | t + 1 => rw [R2, Mach.after_other (T := 1) rfl (by omega)]; rfl

/-- `consume_all` alone: the stack had 3, 2, 1 and keeps 1. -/
example : (∀ t, R3.pc t = .out) ∧ ∃ ws, Holds R2.s ([3, 2] ++ ws) ∧ Holds R3.s ws := by
  obtain ⟨h1, vs, h2, h3⟩ := stack_consume_all_alone exec2 out2 steps3 (t := 0) rfl
  refine ⟨h1, ?_⟩
  rcases h3 with ⟨h3, _⟩ | ⟨us, v, ws, rfl, _, h4, h5⟩
  · cases h3
  · simp only [CRet.raised.injEq] at h4
    exact ⟨ws, by rw [h4]; simpa using h2, h5⟩

/-- From there `consume_all` completes. -/
example : ∃ vs k tr' s', Holds R2.s vs ∧ k ≤ 11 * (vs.length + 1) + 3 ∧
    Alone (cmach Nat cfg2) (fun s p ch => cok cfg2 s p ch ∧ cplain ch) 5 k R2.s .out tr' s' .out ∧
    outer tr' = [.inv 5 (.all none), .res 5 (.consumed vs vs.length)] ∧ Holds s' [] := stack_consume_all_completes exec2 out2 5

end Verif.Stack.CEx
