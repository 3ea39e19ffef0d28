import Verif.Stack.Examples
import Verif.Stack.WeakMore

/-!
# Stack under release/acquire memory: concrete executions, and what does not hold
-/

namespace Verif.Stack.WEx
open Lin

/-- `okWFresh`, computed. -/
def okWB (cfg : Cfg) (w : WSt Nat) (p : PC Nat) : WChoice Nat → Bool
  | .step ch => Ex.okB cfg w.s p ch
  | _ => true

theorem okWB_spec {cfg : Cfg} (w : WSt Nat) (p ch) (h : okWB cfg w p ch = true) : okWFresh cfg w p ch := by
  cases ch with
  | step ch => exact Ex.okB_spec _ _ _ h
  | _ => trivial

abbrev Sched := List (Nat × WChoice Nat)
abbrev WHist := History (Op Nat × View Loc) (Ret Nat × View Loc)

abbrev run (sched : Sched) : Option (WConf Nat × WHist) :=
  (wmach Nat Ex.cfg2).runOk (okWB Ex.cfg2) (WConf.initial 1) [] sched

/-- A schedule gives an execution. -/
theorem exec_of {sched : Sched} {h : History (Op Nat) (Ret Nat)} (hr : (run sched).map (fun x => bare x.2) = some h) :
    ∃ hw C, run sched = some (C, hw) ∧ WFreshExec Ex.cfg2 1 hw C ∧ bare hw = h := by
  simp only [Option.map_eq_some_iff] at hr
  obtain ⟨⟨C, hw⟩, h1, h2⟩ := hr
  exact ⟨hw, C, h1, MSteps.runOk okWB_spec (.refl _) h1, h2⟩

def go (t k : Nat) : Sched := List.replicate k (t, .step .go)

/-- `bounded_push(v)` of thread `t`: reads the newest messages number `i` of `pool_` and number `j` of `tos`. -/
def push (t v i j : Nat) : Sched :=
  [(t, .step (.call (.push true v))), (t, .read i)] ++ go t 3 ++ [(t, .read j)] ++ go t 3

/-- `pop` of thread `t` reads message number `j` of `tos`; `i`: number of the newest message of `pool_`. -/
def pop (t j i : Nat) : Sched :=
  [(t, .step (.call (.pop false))), (t, .read j)] ++ go t 4 ++ [(t, .read i)] ++ go t 3

/-- `pop` of thread `t` reads message `j` of `tos`, a null pointer. -/
def popNone (t j : Nat) : Sched := [(t, .step (.call (.pop false))), (t, .read j)] ++ go t 2

/-! ### A stale read -/

/-- Thread 0 pushes; afterwards thread 1, which has not synchronised with thread 0, pops. -/
def staleSched : Sched := push 0 1 0 0 ++ popNone 1 0

def staleHist : History (Op Nat) (Ret Nat) :=
  [.inv 0 (.push true 1), .res 0 (.pushed true), .inv 1 (.pop false), .res 1 (.popped none)]

/-- The search function of the specification. -/
def specNext (fixed : Bool) (σ : List Nat) : Op Nat → Ret Nat → Option (List Nat)
  | .push _ v, .pushed true => some (v :: σ)
  | .push b _, .pushed false => if fixed || b then some σ else none
  | .pop _, .popped none => if σ = [] then some [] else none
  | .pop _, .popped (some v) => if σ.head? = some v then some σ.tail else none
  | .push _ _, .threw => some σ
  | .pushRange _ vs, .count k => some ((vs.take k).reverse ++ σ)
  | .pushRange _ _, .threw => some σ
  | .consumeAll _ _, .took _ => some []
  | .empty, .isEmpty b => if (b = true ↔ σ = []) then some σ else none
  | .reserve _, .reserved => some σ
  | .reserve _, .threw => some σ
  | _, _ => none

theorem specNext_spec (fixed : Bool) (σ o r σ') (h : specStep fixed σ o r σ') : specNext fixed σ o r = some σ' := by
  cases o <;> cases r <;> simp only [specStep] at h
  case push.pushed b v ok =>
    rcases h with ⟨rfl, rfl⟩ | ⟨rfl, h, rfl⟩ <;> simp_all [specNext]
  case pop.popped thr v => cases v <;> simp at h <;> simp [specNext, h]
  case empty.isEmpty b => simp [specNext, h.1, h.2]
  all_goals simp_all [specNext]

/-- **C47 (what does not hold).** Without synchronisation between the clients, the histories under the
release/acquire memory model are not linearizable in the usual sense: a `pop` may report an empty stack although an earlier
`push` has already returned. -/
theorem stack_ra_not_realtime :
    ∃ (h : WHist) (C : WConf Nat), WFreshExec Ex.cfg2 1 h C ∧ ¬ Linearizable (spec Nat Ex.cfg2.fixed) (bare h) := by
  obtain ⟨h, C, _, h1, h2⟩ := exec_of (sched := staleSched) (h := staleHist) rfl
  exact ⟨h, C, h1, h2 ▸ not_linearizable (specNext false) (specNext_spec false) (by rfl)⟩

/-- It is linearizable with respect to happens-before. -/
example : ∃ h : WHist, bare h = staleHist ∧ HbLinearizable (spec Nat false) (HB h) (bare h) := by
  obtain ⟨h, C, _, h1, h2⟩ := exec_of (sched := staleSched) (h := staleHist) rfl
  exact ⟨h, h2, stack_ra_linearizable h1⟩

/-! ### Synchronised clients -/

/-- All responses happen before all later invocations. -/
def syncB (h : WHist) : Bool :=
  (List.range h.length).all fun i => (List.range i).all fun j =>
    match h[j]?, h[i]? with
    | some (.res t r), some (.inv _ o) => decide (r.2.vc t ≤ o.2.vc t)
    | _, _ => true

theorem syncB_spec {h : WHist} (hs : syncB h = true) :
    ∀ j i t r t' o, h[j]? = some (.res t r) → h[i]? = some (.inv t' o) → j < i → HB h j i := by
  intro j i t r t' o h1 h2 h3
  simp only [syncB, List.all_eq_true, List.mem_range] at hs
  have := hs i (lt_of_getElem? h2) j h3
  rw [h1, h2] at this
  exact ⟨h3, _, _, h1, h2, of_decide_eq_true this⟩

/-- Thread 0 pushes and releases its view; thread 1 acquires it and pops; then the other way round. -/
def syncSched : Sched :=
  push 0 1 0 0 ++ [(0, .post), (1, .wait 0)] ++ pop 1 1 1 ++ [(1, .post), (0, .wait 1)] ++ popNone 0 2

def syncHist : History (Op Nat) (Ret Nat) :=
  [.inv 0 (.push true 1), .res 0 (.pushed true), .inv 1 (.pop false), .res 1 (.popped (some 1)), .inv 0 (.pop false),
   .res 0 (.popped none)]

theorem sync_exec : ∃ (h : WHist) (C : WConf Nat), WFreshExec Ex.cfg2 1 h C ∧ bare h = syncHist ∧ syncB h = true := by
  obtain ⟨h, C, h0, h1, h2⟩ := exec_of (sched := syncSched) (h := syncHist) rfl
  have h3 : (run syncSched).map (fun x => syncB x.2) = some true := rfl
  rw [h0] at h3
  exact ⟨h, C, h1, h2, by simpa using h3⟩

example : Linearizable (spec Nat false) syncHist := by
  obtain ⟨h, C, h1, h2, h3⟩ := sync_exec
  exact h2 ▸ stack_ra_linearizable_sync h1 (syncB_spec h3)

/-! ### Publication through the stack alone, and a racing speculative read -/

/-- Thread 0 pushes. Thread 2 loads `tos` and is overtaken by thread 1, which pops the element without any other
synchronisation. The read of `next` by thread 2 is not ordered after the accesses of thread 1 to the node and returns
garbage. Its compare-exchange fails, and it finds the stack empty. -/
def raceSched : Sched :=
  push 0 1 0 0 ++ [(2, .step (.call (.pop false))), (2, .read 1)] ++ pop 1 1 1 ++ [(2, .race (some 7)), (2, .read 2)] ++ go 2 2

def raceHist : History (Op Nat) (Ret Nat) :=
  [.inv 0 (.push true 1), .res 0 (.pushed true), .inv 2 (.pop false), .inv 1 (.pop false), .res 1 (.popped (some 1)),
   .res 2 (.popped none)]

theorem race_exec : ∃ (h : WHist) (C : WConf Nat), WFreshExec Ex.cfg2 1 h C ∧ bare h = raceHist := by
  obtain ⟨h, C, _, h1, h2⟩ := exec_of (sched := raceSched) (h := raceHist) rfl
  exact ⟨h, C, h1, h2⟩

/-- The invocation of the push happens before the return of the pop by thread 1, but not before its invocation. -/
example : (run raceSched).map (fun x => (x.2[0]?.map fun e => (evView e).vc 0, x.2[3]?.map fun e => (evView e).vc 0,
    x.2[4]?.map fun e => (evView e).vc 0)) = some (some 1, some 0, some 8) := rfl

end Verif.Stack.WEx
