import Verif.Stack.WeakTextProps
import Verif.Stack.WeakExamples
import Verif.Stack.TextExamples

/-!
# The program text of the stack under the release/acquire memory model: concrete executions, and what does not hold (C62)

No further code of /repo is modelled here.
-/

namespace Verif.Stack.Code.RaEx
open Lin Text WordEx TextEx

variable {R : Rep}

abbrev RaPC (R : Rep) := TPC (SSt R.K Nat) (Loc R.K Nat) (SChoice R.K (Op Nat) Nat) (Ret Nat)
abbrev RCh (R : Rep) := RaChoice (SChoice R.K (Op Nat) Nat) (Op Nat)
abbrev RHist := History (Op Nat × View Stack.Loc) (Ret Nat × View Stack.Loc)
abbrev Sched (R : Rep) := List (Nat × RCh R)

/-- `raOk`, computed. -/
def okB (w : RaSt R Nat) : RaPC R → RCh R → Bool
  | .idle, .call o => okc w.s o
  | .run l (.stm (.acc a) :: _), .act ch => a.ok w.s l ch
  | _, _ => true

theorem okB_spec {w : RaSt R Nat} {p : RaPC R} {ch : RCh R} (h : okB w p ch = true) : raOk w p ch := by
  unfold okB at h
  unfold raOk
  split at h
  · exact okc_spec _ _ h
  · exact h
  · rename_i h1 h2
    split
    · exact absurd rfl (h1 _ rfl)
    · exact absurd rfl (h2 _ _ _ _ rfl)
    · trivial

/-- Steps without access of thread `t`, at most `f`. -/
def taus (t : Nat) : Nat → RaConf R Nat → RHist → RaConf R Nat × RHist
  | 0, C, h => (C, h)
  | f + 1, C, h =>
    match (raMach (program R Nat)).step t C.s (C.pc t) .tau with
    | none => (C, h)
    | some (s', p', e) => taus t f ⟨s', upd C.pc t p'⟩ (h ++ e.toList)

/-- Runs a schedule; after each entry, the thread executes what needs no access. -/
def drive : RaConf R Nat → RHist → Sched R → Option (RaConf R Nat × RHist)
  | C, h, [] => some (C, h)
  | C, h, (t, ch) :: l =>
    if okB C.s (C.pc t) ch then
      match (raMach (program R Nat)).step t C.s (C.pc t) ch with
      | none => none
      | some (s', p', e) =>
        let x := taus t 100 ⟨s', upd C.pc t p'⟩ (h ++ e.toList)
        drive x.1 x.2 l
    else none

theorem tau_ok (w : RaSt R Nat) (p : RaPC R) : raOk w p .tau := by unfold raOk; split <;> trivial

theorem taus_steps {t f n : Nat} {C : RaConf R Nat} {h : RHist} (hx : RaTextExec R n h C) :
    RaTextExec R n (taus t f C h).2 (taus t f C h).1 := by
  induction f generalizing C h with
  | zero => exact hx
  | succ f ih =>
    unfold taus
    split
    · exact hx
    · rename_i hs
      exact ih (.step hx hs (tau_ok ..))

theorem drive_steps {n : Nat} {sched : Sched R} {C C₁ : RaConf R Nat} {h h' : RHist} (hx : RaTextExec R n h C)
    (hr : drive C h sched = some (C₁, h')) : RaTextExec R n h' C₁ := by
  induction sched generalizing C h with
  | nil => simp [drive] at hr; obtain ⟨rfl, rfl⟩ := hr; exact hx
  | cons a l ih =>
    obtain ⟨t, ch⟩ := a
    simp only [drive] at hr
    split at hr
    · rename_i hb
      split at hr
      · simp at hr
      · rename_i s' p' e hs
        exact ih (taus_steps (.step hx hs (okB_spec hb))) hr
    · simp at hr

abbrev run (R : Rep) (sched : Sched R) : Option (RaConf R Nat × RHist) := drive (RaConf.initial R Nat 1) [] sched

/-- A schedule gives an execution. -/
theorem exec_of {sched : Sched R} {h : History (Op Nat) (Ret Nat)} (hr : (run R sched).map (fun x => bare x.2) = some h) :
    ∃ hw C, run R sched = some (C, hw) ∧ RaTextExec R 1 hw C ∧ bare hw = h := by
  simp only [Option.map_eq_some_iff] at hr
  obtain ⟨⟨C, hw⟩, h1, h2⟩ := hr
  exact ⟨hw, C, h1, drive_steps (.refl _) h1, h2⟩

def go (t k : Nat) : Sched R := List.replicate k (t, .act .go)

/-- `bounded_push(v)` of thread `t`: reads messages number `i` of `pool_` and number `j` of `tos`. -/
def push (t v i j : Nat) : Sched R := [(t, .call (.push true v)), (t, .read i)] ++ go t 3 ++ [(t, .read j)] ++ go t 2

/-- `pop` of thread `t` reads message number `j` of `tos`; `i`: number of the newest message of `pool_`. -/
def pop (t j i : Nat) : Sched R := [(t, .call (.pop false)), (t, .read j)] ++ go t 4 ++ [(t, .read i)] ++ go t 2

/-- `pop` of thread `t` reads message `j` of `tos`, a null handle. -/
def popNone (t j : Nat) : Sched R := [(t, .call (.pop false)), (t, .read j)]

/-! ### A stale read -/

set_option maxRecDepth 8000 in
/-- **C62 (what does not hold).** Without synchronisation between the clients, the histories of the program text under the release/acquire memory model are
not linearizable in the usual sense: a `pop` may report an empty stack although an earlier `push` has already returned. -/
theorem stack_ra_text_not_realtime :
    ∃ (h : RHist) (C : RaConf cRep Nat), RaTextExec cRep 1 h C ∧ ¬ Linearizable (spec Nat cRep.fixed) (bare h) := by
  obtain ⟨h, C, _, h1, h2⟩ := exec_of (R := cRep) (sched := push 0 1 0 0 ++ popNone 1 0) (h := WEx.staleHist) rfl
  exact ⟨h, C, h1, h2 ▸ not_linearizable (WEx.specNext false) (WEx.specNext_spec false) (by rfl)⟩

set_option maxRecDepth 8000 in
/-- It is linearizable with respect to happens-before. -/
example : ∃ h : RHist, bare h = WEx.staleHist ∧ HbLinearizable (spec Nat false) (HB h) (bare h) := by
  obtain ⟨h, C, _, h1, h2⟩ := exec_of (R := cRep) (sched := push 0 1 0 0 ++ popNone 1 0) (h := WEx.staleHist) rfl
  exact ⟨h, h2, stack_ra_text_linearizable cRep_faithful (by decide) h1⟩

/-! ### Synchronised clients -/

/-- Thread 0 pushes and releases its view; thread 1 acquires it and pops; then the other way round. -/
def syncSched : Sched R :=
  push 0 1 0 0 ++ [(0, .post), (1, .wait 0)] ++ pop 1 1 1 ++ [(1, .post), (0, .wait 1)] ++ popNone 0 2

set_option maxRecDepth 8000 in
theorem sync_exec : ∃ (h : RHist) (C : RaConf cRep Nat), RaTextExec cRep 1 h C ∧ bare h = WEx.syncHist ∧ WEx.syncB h = true ∧
    (C.pc 0 = .idle ∧ C.pc 1 = .idle) := by
  obtain ⟨h, C, h0, h1, h2⟩ := exec_of (R := cRep) (sched := syncSched) (h := WEx.syncHist) rfl
  have h3 : (run cRep syncSched).map (fun x => WEx.syncB x.2) = some true := rfl
  have h4 : (run cRep syncSched).map (fun x => x.1.pc 0) = some .idle := rfl
  have h5 : (run cRep syncSched).map (fun x => x.1.pc 1) = some .idle := rfl
  rw [h0] at h3 h4 h5
  exact ⟨h, C, h1, h2, by simpa using h3, by simpa using h4, by simpa using h5⟩

example : Linearizable (spec Nat false) WEx.syncHist := by
  obtain ⟨h, C, h1, h2, h3, -⟩ := sync_exec
  exact h2 ▸ stack_ra_text_linearizable_sync cRep_faithful (by decide) h1 (WEx.syncB_spec h3)

/-- C62 (publication): the call that offered the popped value happens before the return of the pop. -/
example : ∃ h : RHist, bare h = WEx.syncHist ∧ ∃ i u o w, h[i]? = some (.inv u (o, w)) ∧ 1 ∈ offeredBy o ∧ HB h i 3 := by
  obtain ⟨h, C, h1, h2, -⟩ := sync_exec
  refine ⟨h, h2, ?_⟩
  have h3 : (bare h)[3]? = some (.res 1 (.popped (some 1))) := by rw [h2]; rfl
  simp only [bare, List.getElem?_map, Option.map_eq_some_iff] at h3
  obtain ⟨e, h4, h5⟩ := h3
  cases e <;> simp at h5
  rename_i t r
  obtain ⟨rfl, h5⟩ := h5
  exact stack_ra_text_publication cRep_faithful (by decide) h1 (r := r.1) (v := r.2) h4 (by rw [h5]; simp [retVals])

/-! ### A racing speculative read -/

/-- As `WEx.raceSched`: thread 2 loads `tos` and is overtaken by thread 1, which pops the element. The read of `next` by thread 2 is not ordered after the
accesses of thread 1 to the node and returns garbage. -/
def raceSched (x : R.K.H) : Sched R :=
  push 0 1 0 0 ++ [(2, .call (.pop false)), (2, .read 1)] ++ pop 1 1 1 ++ [(2, .race (.racy x)), (2, .read 2)]

set_option maxRecDepth 8000 in
theorem race_exec : ∃ (h : RHist) (C : RaConf cRep Nat), RaTextExec cRep 1 h C ∧ bare h = WEx.raceHist := by
  obtain ⟨h, C, _, h1, h2⟩ := exec_of (R := cRep) (sched := raceSched 0xfff0fff0#64) (h := WEx.raceHist) rfl
  exact ⟨h, C, h1, h2⟩

set_option maxRecDepth 8000 in
theorem race_exec_dcas : ∃ (h : RHist) (C : RaConf dRep Nat), RaTextExec dRep 1 h C ∧ bare h = WEx.raceHist := by
  obtain ⟨h, C, _, h1, h2⟩ := exec_of (R := dRep) (sched := raceSched 0xfff0fff0fff0fff0#64) (h := WEx.raceHist) rfl
  exact ⟨h, C, h1, h2⟩

set_option maxRecDepth 8000 in
/-- C62 (race freedom): in that execution, thread 1 is about to destroy the element; the accesses of thread 0 to the node happen before. -/
example : (run cRep (push 0 1 0 0 ++ ([(1, .call (.pop false)), (1, .read 1)] ++ go 1 3))).map
    (fun x => (match x.1.pc 1 with
      | .run l (.stm (.acc a) :: _) => (match a.kind l with | .plain ns => ns | _ => [])
      | _ => [], x.1.s.acc 0, (x.1.s.view 1).vc 0)) = some ([0], [(1, 5), (0, 7), (0, 5)], 8) := rfl

/-- C62 (relation to C52): the execution of `TextEx`. -/
example : ∃ (h' : RHist) (C' : RaConf cRep Nat), RaTextExec cRep 1 h' C' ∧ bare h' = hist := by
  obtain ⟨h', C', h1, h2, -⟩ := stack_ra_text_includes_sc cRep_faithful (by decide) compressed_text
  exact ⟨h', C', h1, h2⟩

end Verif.Stack.Code.RaEx
