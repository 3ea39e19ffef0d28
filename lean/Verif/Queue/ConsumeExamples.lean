import Verif.ClientRun
import Verif.Queue.Consume
import Verif.Queue.Examples
import Verif.Queue.WeakExamples

/-!
# Queue: `consume_all` is not atomic; concrete executions with `consume_one` and `consume_all`
-/

namespace Verif.Queue.CEx
open Lin Ex

/-- The restriction on steps, computed. -/
def cokB (cfg : Cfg) (s : St Nat) : CPC (PC Nat) (CRet (Ret Nat) Nat) (CLocal (Op Nat) (Ret Nat) Nat) →
    CChoice (QChoice Nat) (COp (Op Nat)) → Bool
  | .within _ p, .inner ch => okC cfg s p ch
  | _, _ => true

theorem cokB_spec {cfg : Cfg} (s : St Nat) (p ch) (h : cokB cfg s p ch = true) : cok cfg s p ch := by
  cases p <;> cases ch <;> first | trivial | skip
  · intro o _; trivial
  · exact okC_fresh _ _ _ h

/-- A call of `pop` or `push` that takes `k` steps. -/
def ins (t k : Nat) : List (Nat × CChoice (QChoice Nat) (COp (Op Nat))) := (t, .go) :: List.replicate k (t, .inner (.base .go))

/-- Thread `t` calls `o`, which takes `k` steps. -/
def prim (t : Nat) (o : Op Nat) (k : Nat) : List (Nat × CChoice (QChoice Nat) (COp (Op Nat))) :=
  (t, .call (.prim o)) :: ins t k ++ [(t, .go), (t, .go)]

/-- Thread 1 is in `consume_all` and takes 1; thread 0 finds the queue empty and pushes 2; thread 1 takes 2 as well. -/
def race : List (Nat × CChoice (QChoice Nat) (COp (Op Nat))) :=
  prim 0 (.push false 1) 12 ++ (1, .call (.all none)) :: ins 1 11 ++ prim 0 .pop 5 ++ prim 0 (.push false 2) 12 ++
  ins 1 11 ++ ins 1 5 ++ [(1, .go), (1, .go)]

def raceTrace : CTrace Nat :=
  [.inv 0 (.inl (.prim (.push false 1))), .inv 0 (.inr (.push false 1)), .res 0 (.inr (.pushed true)), .res 0 (.inl (.prim (.pushed true))),
   .inv 1 (.inl (.all none)), .inv 1 (.inr .pop), .res 1 (.inr (.popped (some 1))),
   .inv 0 (.inl (.prim .pop)), .inv 0 (.inr .pop), .res 0 (.inr (.popped none)), .res 0 (.inl (.prim (.popped none))),
   .inv 0 (.inl (.prim (.push false 2))), .inv 0 (.inr (.push false 2)), .res 0 (.inr (.pushed true)), .res 0 (.inl (.prim (.pushed true))),
   .inv 1 (.inr .pop), .res 1 (.inr (.popped (some 2))), .inv 1 (.inr .pop), .res 1 (.inr (.popped none)),
   .res 1 (.inl (.consumed [1, 2] 2))]

def start : CConf Nat := outside (St.ofHeap cfg3 (Heap.initial 3))
def R1 : CConf Nat := (cmach Nat cfg3).after (cokB cfg3) start race

theorem race_exec : CExec cfg3 2 raceTrace R1 := Mach.after_steps cokB_spec (sched := race) rfl

theorem race_out (t : Nat) : R1.pc t = .out := by
  match t with
  | 0 | 1 => rfl
  | t + 2 => rw [R1, Mach.after_other (T := 2) rfl (by omega)]; rfl

/-- What an atomic `consume_all` (such as `consume_all_atomic` of the stack, stack.hpp:609-685) would do: take all elements at
one instant. -/
def drainStep (fixed : Bool) (σ : List Nat) : COp (Op Nat) → CRet (Ret Nat) Nat → List Nat → Prop
  | .prim o, .prim r, σ' => specStep fixed σ o r σ'
  | .all none, .consumed vs m, σ' => vs = σ ∧ m = σ.length ∧ σ' = []
  | _, _, _ => False

def drainSpec (fixed : Bool) : Spec (COp (Op Nat)) (CRet (Ret Nat) Nat) := ⟨List Nat, [], drainStep fixed⟩

def drainNext (fixed : Bool) (σ : List Nat) : COp (Op Nat) → CRet (Ret Nat) Nat → Option (List Nat)
  | .prim o, .prim r => WEx.specNext fixed σ o r
  | .all none, .consumed vs m => if vs = σ ∧ m = σ.length then some [] else none
  | _, _ => none

theorem drainNext_spec (fixed : Bool) (σ o r σ') (h : drainStep fixed σ o r σ') : drainNext fixed σ o r = some σ' := by
  unfold drainStep at h
  split at h
  · exact WEx.specNext_spec fixed _ _ _ _ h
  · obtain ⟨rfl, rfl, rfl⟩ := h; simp [drainNext]
  · exact h.elim

/-- **C50 (what does not hold).** `consume_all` is not atomic: there is an execution, complete and without exceptions, in which it
returns elements that were never in the queue at the same time; its calls cannot be ordered such that `consume_all` takes the contents
of the queue at one instant. -/
theorem queue_consume_all_not_atomic :
    ∃ (tr : CTrace Nat) (C : CConf Nat), CExec cfg3 2 tr C ∧ (∀ t, C.pc t = .out) ∧
      ¬ Linearizable (drainSpec cfg3.fixed) (outer tr) := by
  exact ⟨_, _, race_exec, race_out, not_linearizable (drainNext false) (drainNext_spec false) (by rfl)⟩

/-- Nothing is wrong with `drainSpec`: without the pop of thread 0 the same calls are linearizable. -/
example : Linearizable (drainSpec false) [.inv 0 (.prim (.push false 1)), .res 0 (.prim (.pushed true)), .inv 1 (.all none),
    .inv 0 (.prim (.push false 2)), .res 0 (.prim (.pushed true)), .res 1 (.consumed [1, 2] 2)] := by
  have h0 := CReach.init (S := drainSpec false)
  have h1 := h0.move (.inv (t := 0) (o := .prim (.push false 1)) rfl)
  have h2 := h1.move (.lin (t := 0) (r := .prim (.pushed true)) (σ' := [1]) rfl (by exact Or.inl ⟨rfl, rfl⟩))
  have h3 := h2.move (.res (t := 0) rfl)
  have h4 := h3.move (.inv (t := 1) (o := .all none) rfl)
  have h5 := h4.move (.inv (t := 0) (o := .prim (.push false 2)) rfl)
  have h6 := h5.move (.lin (t := 0) (r := .prim (.pushed true)) (σ' := [1, 2]) rfl (by exact Or.inl ⟨rfl, rfl⟩))
  have h7 := h6.move (.res (t := 0) rfl)
  have h8 := h7.move (.lin (t := 1) (r := .consumed [1, 2] 2) (σ' := []) rfl (by exact ⟨rfl, rfl, rfl⟩))
  exact (h8.move (.res (t := 1) rfl)).linearizable

/-- The call of `consume_all` in this execution. -/
theorem race_call : RoutineCall raceTrace 1 4 19 (.all none) (.consumed [1, 2] 2) :=
  routineCall_of (by omega) rfl rfl rfl

/-- The calls made in it. -/
example : ofThread 1 (inner (strictly raceTrace 4 19)) =
    callEvents 1 [(.pop, .popped (some 1)), (.pop, .popped (some 2)), (.pop, .popped none)] := rfl

/-- At the end of it the queue was empty; it was not when `consume_all` was called, nor when it had taken the first element and thread 0
had pushed 2. -/
example : ∃ k C₁, 4 < k ∧ k ≤ 19 ∧ CExec cfg3 2 (raceTrace.take k) C₁ ∧ Holds C₁.s [] := by
  obtain ⟨_, k, C₁, h1, h2, h3, _, h4⟩ := queue_consume_all_was_empty race_exec race_call
  exact ⟨k, C₁, h1, h2, h3, h4⟩

/-- The push of 1 returned before the push of 2 was called, so 2 is not taken before 1. -/
example : ¬ [2, 1].Sublist (applied (.consumed [1, 2] 2 : CRet (Ret Nat) Nat)) :=
  queue_consume_all_order race_exec (v := 1) (w := 2) (by omega) (iv := 1) (jv := 2) (iw := 12)
    (by
      intro k t b hk
      have hlt : k < 20 := lt_of_getElem? hk
      match k, hlt with
      | 0, _ | 1, _ | 2, _ | 3, _ | 4, _ | 5, _ | 6, _ | 7, _ | 8, _ | 9, _ | 10, _ | 11, _ | 12, _ | 13, _ | 14, _ | 15, _ | 16, _
      | 17, _ | 18, _ | 19, _ => simp_all [raceTrace])
    (by
      intro k t b hk
      have hlt : k < 20 := lt_of_getElem? hk
      match k, hlt with
      | 0, _ | 1, _ | 2, _ | 3, _ | 4, _ | 5, _ | 6, _ | 7, _ | 8, _ | 9, _ | 10, _ | 11, _ | 12, _ | 13, _ | 14, _ | 15, _ | 16, _
      | 17, _ | 18, _ | 19, _ => simp_all [raceTrace])
    (innerCall_of (by omega) rfl rfl rfl) rfl (by omega) race_call

/-- Both elements accepted were given to the functor, and the queue is empty. -/
example : ((calls (outer raceTrace)).flatMap fun x => takenBy x.2.1 x.2.2) = [1, 2] ∧
    ((calls (outer raceTrace)).flatMap fun x => givenBy x.2.1 x.2.2) = [1, 2] ∧ Holds R1.s [] := by
  refine ⟨rfl, rfl, ?_⟩
  obtain ⟨vs, h1, h2⟩ := queue_consume_conservation race_exec race_out
  have h3 : ([1, 2] ++ vs).length = [1, 2].length := h2.length_eq
  have : vs = [] := by simpa using h3
  rw [← this]; exact h1

/-! ### A functor that throws -/

/-- Four pushes; `consume_one` with a functor that throws; then `consume_all` with a functor that throws in its second call. -/
def thrown : List (Nat × CChoice (QChoice Nat) (COp (Op Nat))) :=
  prim 0 (.push false 1) 12 ++ prim 0 (.push false 2) 12 ++ prim 0 (.push false 3) 12 ++ prim 0 (.push false 4) 12

def R2 : CConf Nat := (cmach Nat cfg3).after (cokB cfg3) (outside (St.ofHeap cfg3 (Heap.initial 5))) thrown

def thrown1 : List (Nat × CChoice (QChoice Nat) (COp (Op Nat))) :=
  (0, .call (.one true)) :: ins 0 11 ++ [(0, .go), (0, .go)]

def R3 : CConf Nat := (cmach Nat cfg3).after (cokB cfg3) R2 thrown1

def thrown2 : List (Nat × CChoice (QChoice Nat) (COp (Op Nat))) :=
  (0, .call (.all (some 1))) :: ins 0 11 ++ ins 0 11 ++ [(0, .go), (0, .go)]

def R4 : CConf Nat := (cmach Nat cfg3).after (cokB cfg3) R3 thrown2

def trace2 : CTrace Nat := [1, 2, 3, 4].flatMap fun v =>
  [.inv 0 (.inl (.prim (.push false v))), .inv 0 (.inr (.push false v)), .res 0 (.inr (.pushed true)), .res 0 (.inl (.prim (.pushed true)))]

def trace3 : CTrace Nat :=
  [.inv 0 (.inl (.one true)), .inv 0 (.inr .pop), .res 0 (.inr (.popped (some 1))), .res 0 (.inl (.raised [1]))]

def trace4 : CTrace Nat :=
  [.inv 0 (.inl (.all (some 1))), .inv 0 (.inr .pop), .res 0 (.inr (.popped (some 2))), .inv 0 (.inr .pop),
   .res 0 (.inr (.popped (some 3))), .res 0 (.inl (.raised [2, 3]))]

theorem exec2 : CExec cfg3 4 trace2 R2 := Mach.after_steps cokB_spec (sched := thrown) rfl
theorem steps3 : MSteps (cmach Nat cfg3) (cok cfg3) R2 trace3 R3 := Mach.after_steps cokB_spec (sched := thrown1) rfl
theorem steps4 : MSteps (cmach Nat cfg3) (cok cfg3) R3 trace4 R4 := Mach.after_steps cokB_spec (sched := thrown2) rfl
theorem exec3 : CExec cfg3 4 (trace2 ++ trace3) R3 := exec2.trans steps3
theorem exec4 : CExec cfg3 4 (trace2 ++ trace3 ++ trace4) R4 := exec3.trans steps4

theorem out2 (t : Nat) : R2.pc t = .out := by
  match t with
  | 0 => rfl
  | t + 1 => rw [R2, Mach.after_other (T := 1) rfl (by omega)]; rfl

theorem out3 (t : Nat) : R3.pc t = .out := by
  match t with
  | 0 => rfl
  | t + 1 => rw [R3, Mach.after_other (T := 1) rfl (by omega), out2]

/-- `consume_one`: the element 1 is lost with the exception. -/
example : ∃ x, ofThread 0 (inner (strictly (trace2 ++ trace3) 16 19)) = callEvents 0 [(.pop, x)] ∧ x = .popped (some 1) := by
  obtain ⟨x, h1, h2⟩ := queue_consume_one exec3 (i := 16) (j := 19) (r := .raised [1]) (routineCall_of (t := 0) (by omega) rfl rfl rfl)
  rcases h2 with ⟨_, h2⟩ | ⟨v, rfl, h2⟩ | ⟨_, h2⟩
  · cases h2
  · simp at h2; exact ⟨_, h1, by rw [h2]⟩
  · cases h2

/-- `consume_all` alone: the queue had 2, 3, 4 and keeps 4. -/
example : (∀ t, R4.pc t = .out) ∧ ∃ ws, Holds R3.s ([2, 3] ++ ws) ∧ Holds R4.s ws := by
  obtain ⟨h1, vs, h2, h3⟩ := queue_consume_all_alone exec3 out3 steps4 (t := 0) rfl
  refine ⟨h1, ?_⟩
  rcases h3 with ⟨h3, _⟩ | ⟨us, v, ws, rfl, _, h4, h5⟩ | ⟨us, ws, rfl, h4, h5⟩
  · cases h3
  · simp only [CRet.raised.injEq] at h4
    exact ⟨ws, by rw [h4]; simpa using h2, h5⟩
  · simp only [CRet.raised.injEq] at h4
    subst h4
    exact ⟨ws, h2, h5⟩

/-- From there `consume_all` completes. -/
example : ∃ vs k tr' s', Holds R3.s vs ∧ k ≤ 20 * (vs.length + 1) + 3 ∧
    Alone (cmach Nat cfg3) (fun s p ch => cok cfg3 s p ch ∧ cplain ch) 5 k R3.s .out tr' s' .out ∧
    outer tr' = [.inv 5 (.all none), .res 5 (.consumed vs vs.length)] ∧ Holds s' [] := queue_consume_all_completes exec3 out3 5

end Verif.Queue.CEx
