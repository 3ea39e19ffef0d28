import Verif.Queue.Examples
import Verif.Queue.WeakMore

/-!
# Queue under release/acquire memory: concrete executions, and what does not hold
-/

namespace Verif.Queue.WEx
open Lin

/-- `okWFresh`, computed. -/
def okWB (cfg : Cfg) (w : WSt Nat) (p : PC Nat) : WChoice Nat → Bool
  | .step _ => Ex.freshB cfg w.s p
  | .read _ _ => (casOf p).isSome || Ex.freshB cfg w.s p
  | _ => true

theorem okWB_spec {cfg : Cfg} (w : WSt Nat) (p ch) (h : okWB cfg w p ch = true) : okWFresh cfg w p ch := by
  cases ch with
  | step ch => exact Ex.freshB_spec h
  | read alt i =>
    intro hc
    simp only [okWB, hc, Option.isSome_none, Bool.false_or] at h
    exact Ex.freshB_spec h
  | _ => trivial

abbrev Sched := List (Nat × WChoice Nat)
abbrev WHist := History (Op Nat × View Loc) (Ret Nat × View Loc)

/-- One node besides the dummy in the pool; three tags. -/
abbrev run (rel : Bool) (sched : Sched) : Option (WConf Nat × WHist) :=
  (wmach Nat Ex.cfg3 rel).runOk (okWB Ex.cfg3) (WConf.initial Ex.cfg3 1) [] sched

/-- A schedule gives an execution. -/
theorem exec_of {rel : Bool} {sched : Sched} {h : History (Op Nat) (Ret Nat)}
    (hr : (run rel sched).map (fun x => bare x.2) = some h) :
    ∃ hw C, run rel sched = some (C, hw) ∧ WFreshExec Ex.cfg3 rel 1 hw C ∧ bare hw = h := by
  simp only [Option.map_eq_some_iff] at hr
  obtain ⟨⟨C, hw⟩, h1, h2⟩ := hr
  exact ⟨hw, C, h1, MSteps.runOk okWB_spec (.refl _) h1, h2⟩

def go (t k : Nat) : Sched := List.replicate k (t, .step (.base .go))
def rd (t i : Nat) : Sched := [(t, .read false i)]

/-- `push(v)` of thread `t` up to the loop: reads message `i` of `pool_`; then message `m` of the `next` word
of the new node. The node comes from the pool (`k = 2`) or from the allocator (`k = 1`). -/
def prep (t v k i m : Nat) : Sched := (t, .step (.base (.call (.push false v)))) :: rd t i ++ go t (k + 1) ++ rd t m ++ go t 1

/-- The loop of `push`: reads message `j` of `tail_` and message `x` of the `next` word of that node. -/
def link (t j x : Nat) : Sched := rd t j ++ rd t x ++ rd t j ++ go t 1

def push (t v k i m j x : Nat) : Sched := prep t v k i m ++ link t j x ++ go t 2

/-- `pop` of thread `t` reads message `i` of `head_`, `j` of `tail_`, `x` of the `next` word of the dummy; `k`: message
of `pool_`. -/
def look (t i j x : Nat) : Sched := (t, .step (.base (.call .pop))) :: rd t i ++ rd t j ++ rd t x ++ rd t i
def pop (t i j x k : Nat) : Sched := look t i j x ++ go t 3 ++ rd t k ++ go t 3
def popNone (t i j x : Nat) : Sched := look t i j x ++ go t 1

/-! ### A stale read -/

/-- Thread 0 pushes; afterwards thread 1, which has not synchronised with thread 0, pops. -/
def staleSched : Sched := push 0 1 2 0 0 0 0 ++ popNone 1 0 0 0

def staleHist : History (Op Nat) (Ret Nat) :=
  [.inv 0 (.push false 1), .res 0 (.pushed true), .inv 1 .pop, .res 1 (.popped none)]

/-- The search function of the specification. -/
def specNext (fixed : Bool) (σ : List Nat) : Op Nat → Ret Nat → Option (List Nat)
  | .push _ v, .pushed true => some (σ ++ [v])
  | .push b _, .pushed false => if fixed || b then some σ else none
  | .push _ _, .threw => some σ
  | .pop, .popped none => if σ = [] then some [] else none
  | .pop, .popped (some v) => if σ.head? = some v then some σ.tail else none
  | .pop, .threw => some σ
  | .empty, .isEmpty _ => some σ
  | .reserve _, .reserved => some σ
  | .reserve _, .threw => some σ
  | _, _ => none

theorem specNext_spec (fixed : Bool) (σ o r σ') (h : specStep fixed σ o r σ') : specNext fixed σ o r = some σ' := by
  cases o <;> cases r <;> simp only [specStep] at h
  case push.pushed b v ok =>
    rcases h with ⟨rfl, rfl⟩ | ⟨rfl, h, rfl⟩ <;> simp_all [specNext]
  case pop.popped v => cases v <;> simp at h <;> simp [specNext, h]
  all_goals simp_all [specNext]

/-- **C48 (what does not hold).** Without synchronisation between the clients, the histories under the
release/acquire memory model are not linearizable in the usual sense: a `pop` may report an empty queue although an earlier
`push` has already returned. -/
theorem queue_ra_not_realtime :
    ∃ (h : WHist) (C : WConf Nat), WFreshExec Ex.cfg3 true 1 h C ∧ ¬ Linearizable (spec Nat Ex.cfg3.fixed) (bare h) := by
  obtain ⟨h, C, _, h1, h2⟩ := exec_of (rel := true) (sched := staleSched) (h := staleHist) rfl
  exact ⟨h, C, h1, h2 ▸ not_linearizable (specNext false) (specNext_spec false) (by rfl)⟩

/-- It is linearizable with respect to happens-before. -/
example : ∃ h : WHist, bare h = staleHist ∧ HbLinearizable (spec Nat false) (HB h) (bare h) := by
  obtain ⟨h, C, _, h1, h2⟩ := exec_of (rel := true) (sched := staleSched) (h := staleHist) rfl
  exact ⟨h, h2, queue_ra_linearizable h1⟩

/-! ### Synchronised clients -/

/-- All responses happen before all later invocations. -/
def syncB (h : WHist) : Bool :=
  (List.range h.length).all fun i => (List.range i).all fun j =>
    match h[j]?, h[i]? with
    | some (.res t r), some (.inv _ o) => decide (r.2.vc t ≤ o.2.vc t)
    | _, _ => true

theorem syncB_spec {h : WHist} (hs : syncB h = true) :
    ∀ j i t r t' o, h[j]? = some (.res t r) → h[i]? = some (.inv t' o) → j < i → HB h j i := by
  intro j i t r t' o h1 h2 h3
  simp only [syncB, List.all_eq_true, List.mem_range] at hs
  have := hs i (lt_of_getElem? h2) j h3
  rw [h1, h2] at this
  exact ⟨h3, _, _, h1, h2, of_decide_eq_true this⟩

theorem exec_sync {rel : Bool} {sched : Sched} {h : History (Op Nat) (Ret Nat)}
    (hr : (run rel sched).map (fun x => (bare x.2, syncB x.2)) = some (h, true)) :
    ∃ (hw : WHist) (C : WConf Nat), WFreshExec Ex.cfg3 rel 1 hw C ∧ bare hw = h ∧ syncB hw = true := by
  simp only [Option.map_eq_some_iff, Prod.mk.injEq] at hr
  obtain ⟨⟨C, hw⟩, h1, h2, h3⟩ := hr
  exact ⟨hw, C, MSteps.runOk okWB_spec (.refl _) h1, h2, h3⟩

/-- Thread 0 pushes two values and releases its view; thread 1 acquires it and pops; then the other way round. -/
def syncSched : Sched :=
  push 0 1 2 0 0 0 0 ++ push 0 2 1 1 0 1 1 ++ [(0, .post), (1, .wait 0)] ++ pop 1 0 2 1 1 ++ [(1, .post), (0, .wait 1)] ++
  pop 0 1 2 2 2 ++ popNone 0 2 2 1

def syncHist : History (Op Nat) (Ret Nat) :=
  [.inv 0 (.push false 1), .res 0 (.pushed true), .inv 0 (.push false 2), .res 0 (.pushed true), .inv 1 .pop,
   .res 1 (.popped (some 1)), .inv 0 .pop, .res 0 (.popped (some 2)), .inv 0 .pop, .res 0 (.popped none)]

set_option maxRecDepth 2000 in
theorem sync_exec : ∃ (h : WHist) (C : WConf Nat), WFreshExec Ex.cfg3 true 1 h C ∧ bare h = syncHist ∧ syncB h = true :=
  exec_sync (sched := syncSched) rfl

example : Linearizable (spec Nat false) syncHist := by
  obtain ⟨h, C, h1, h2, h3⟩ := sync_exec
  exact h2 ▸ queue_ra_linearizable_sync h1 (syncB_spec h3)

/-! ### The non-atomic write of the freelist -/

/-- Thread 0 has loaded `tail_`, and the node it points to is popped and put into the freelist by thread 1. -/
def lostA : Sched :=
  prep 0 10 2 0 0 ++ rd 0 0 ++ push 1 20 1 1 0 0 0 ++ pop 1 0 1 1 1

/-- Thread 0 reads the link of the node as the freelist wrote it, and an old value of `tail_`; it links its
node to the free node and returns. Then it waits for thread 1 and pops. -/
def lostSched : Sched :=
  lostA ++ [(1, .post)] ++ rd 0 2 ++ rd 0 0 ++ go 0 1 ++ rd 0 1 ++ go 0 1 ++ [(0, .wait 0)] ++ popNone 0 1 1 1

def lostHist : History (Op Nat) (Ret Nat) :=
  [.inv 0 (.push false 10), .inv 1 (.push false 20), .res 1 (.pushed true), .inv 1 .pop, .res 1 (.popped (some 20)),
   .res 0 (.pushed true), .inv 0 .pop, .res 0 (.popped none)]

/-- **C48 (what does not hold).** The result depends on what a load that reads from the freelist's non-atomic write of a
link (freelist.hpp:238, 595) synchronises with. If it synchronises with nothing (`rel = false`), a `push` may link its
node behind a node that is in the freelist already, and return `true`: the element is lost. All calls of this
execution are synchronised: each call happens after all calls that returned earlier. -/
theorem queue_ra_link_write_lost :
    ∃ (h : WHist) (C : WConf Nat), WFreshExec Ex.cfg3 false 1 h C ∧ ¬ HbLinearizable (spec Nat Ex.cfg3.fixed) (HB h) (bare h) := by
  have hr : (run false lostSched).map (fun x => (bare x.2, syncB x.2)) = some (lostHist, true) := rfl
  obtain ⟨h, C, h1, h2, h3⟩ := exec_sync hr
  refine ⟨h, C, h1, fun ⟨L, hL⟩ => ?_⟩
  have hn : ¬ Linearizable (spec Nat false) lostHist := not_linearizable (specNext false) (specNext_spec false) (by rfl)
  refine hn (h2 ▸ ⟨L, hL.linearization fun j i t r t' o h4 h5 hji => ?_⟩)
  simp only [bare, List.getElem?_map, Option.map_eq_some_iff] at h4 h5
  obtain ⟨e, he, h6⟩ := h4
  obtain ⟨f, hf, h7⟩ := h5
  cases e <;> cases f <;> simp at h6 h7
  exact syncB_spec h3 j i _ _ _ _ he hf hji

/-- With `rel = true` this schedule is impossible. -/
example : (run true lostSched).isNone = true := rfl
example : (run true (lostA ++ rd 0 2)).isSome = true := rfl
example : (run true (lostA ++ rd 0 2 ++ rd 0 0)).isNone = true := rfl

/-- After that, the node of the lost element is in the freelist, too. The second of two further pushes constructs its
element in that node. -/
def brokenSched : Sched := lostSched ++ push 1 30 2 2 3 1 1 ++ (1, .step (.base (.call (.push false 40)))) :: rd 1 3 ++ go 1 3

set_option maxRecDepth 2000 in
/-- **C48 (what does not hold).** In that case, threads also construct elements over live ones. -/
theorem queue_ra_link_write_corrupts : ∃ (h : WHist) (C : WConf Nat), WFreshExec Ex.cfg3 false 1 h C ∧ C.pc 1 = .err := by
  have hr : (run false brokenSched).map (fun x => match x.1.pc 1 with | .err => true | _ => false) = some true := rfl
  simp only [Option.map_eq_some_iff] at hr
  obtain ⟨⟨C, h⟩, h1, h2⟩ := hr
  refine ⟨h, C, MSteps.runOk okWB_spec (.refl _) h1, ?_⟩
  revert h2
  cases C.pc 1 <;> simp

/-- With `rel = true`: thread 0 reads a torn link, sees the new value of `tail_`, and tries again. -/
def tornSched : Sched :=
  lostA ++ [(0, .torn 2 2 ⟨some 7, 2⟩)] ++ rd 0 1 ++ link 0 1 1 ++ go 0 2 ++ [(0, .post), (1, .wait 0)] ++ pop 1 1 2 2 2

def tornHist : History (Op Nat) (Ret Nat) :=
  [.inv 0 (.push false 10), .inv 1 (.push false 20), .res 1 (.pushed true), .inv 1 .pop, .res 1 (.popped (some 20)),
   .res 0 (.pushed true), .inv 1 .pop, .res 1 (.popped (some 10))]

set_option maxRecDepth 2000 in
theorem torn_exec : ∃ (h : WHist) (C : WConf Nat), WFreshExec Ex.cfg3 true 1 h C ∧ bare h = tornHist := by
  obtain ⟨h, C, _, h1, h2⟩ := exec_of (rel := true) (sched := tornSched) (h := tornHist) rfl
  exact ⟨h, C, h1, h2⟩

/-! ### Publication through the queue alone, and a racing speculative read -/

/-- Thread 0 pushes. Thread 2 looks at the queue and is overtaken by thread 1, which pops the element without any other
synchronisation. Thread 0 pushes and pops again, which destroys the payload that thread 2 is about to read; thread 2 reads
garbage, its compare-exchange fails, and it finds the queue empty. -/
def raceSched : Sched :=
  push 0 1 2 0 0 0 0 ++ look 2 0 1 1 ++ pop 1 0 1 1 1 ++ push 0 2 2 2 2 1 1 ++ pop 0 1 2 2 3 ++
  [(2, .step (.garbage 99))] ++ rd 2 2 ++ rd 2 2 ++ rd 2 2 ++ rd 2 3 ++ rd 2 2 ++ go 2 1

def raceHist : History (Op Nat) (Ret Nat) :=
  [.inv 0 (.push false 1), .res 0 (.pushed true), .inv 2 .pop, .inv 1 .pop, .res 1 (.popped (some 1)), .inv 0 (.push false 2),
   .res 0 (.pushed true), .inv 0 .pop, .res 0 (.popped (some 2)), .res 2 (.popped none)]

set_option maxRecDepth 2000 in
theorem race_exec : ∃ (h : WHist) (C : WConf Nat), WFreshExec Ex.cfg3 true 1 h C ∧ bare h = raceHist := by
  obtain ⟨h, C, _, h1, h2⟩ := exec_of (rel := true) (sched := raceSched) (h := raceHist) rfl
  exact ⟨h, C, h1, h2⟩

/-- The invocation of the first push happens before the return of the pop by thread 1, but not before its invocation. -/
example : (run true (raceSched.take 40)).map (fun x => (x.2[0]?.map fun e => (evView e).vc 0, x.2[3]?.map fun e => (evView e).vc 0,
    x.2[4]?.map fun e => (evView e).vc 0)) = some (some 1, some 0, some 12) := rfl

end Verif.Queue.WEx
