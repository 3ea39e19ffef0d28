import Verif.Queue.WeakTextProps
import Verif.Queue.WeakExamples
import Verif.Queue.TextExamples

/-!
# The program text of the queue under the release/acquire memory model: concrete executions, and what does not hold (C63)

No further code of /repo is modelled here.
-/

namespace Verif.Queue.Code.RaEx
open Lin Text WordEx TextEx
open Stack.WordEx (cRep dRep)

variable {R : Rep} {rel : Bool}

abbrev RaPC (R : Rep) := TPC (SSt R.K Nat) (Loc R.K Nat) (SChoice R.K (Op Nat) Nat) (Ret Nat)
abbrev RCh (R : Rep) := RaChoice R (SChoice R.K (Op Nat) Nat) (Op Nat)
abbrev RHist := History (Op Nat × View Queue.Loc) (Ret Nat × View Queue.Loc)
abbrev Sched (R : Rep) := List (Nat × RCh R)

/-- `raOk`, computed. -/
def okB (w : RaSt R Nat) : RaPC R → RCh R → Bool
  | .run l (.stm (.acc a) :: _), .act ch => a.ok w.s l ch
  | .run l (.stm (.acc a) :: _), .read _ _ =>
    match a.kind l with
    | .load _ _ => a.ok w.s l .go
    | _ => true
  | _, _ => true

theorem okB_spec {w : RaSt R Nat} {p : RaPC R} {ch : RCh R} (h : okB w p ch = true) : raOk w p ch := by
  unfold okB at h
  unfold raOk
  split at h
  · exact h
  · rename_i l a k b i
    simp only
    split
    · rename_i hk
      simpa only [hk] using h
    · trivial
  · rename_i h1 h2
    split
    · exact absurd rfl (h1 _ _ _ _ rfl)
    · exact absurd rfl (h2 _ _ _ _ _ rfl)
    · trivial

/-- Steps without access of thread `t`, at most `f`. -/
def taus (rel : Bool) (t : Nat) : Nat → RaConf R Nat → RHist → RaConf R Nat × RHist
  | 0, C, h => (C, h)
  | f + 1, C, h =>
    match (raMach rel (program R Nat)).step t C.s (C.pc t) .tau with
    | none => (C, h)
    | some (s', p', e) => taus rel t f ⟨s', upd C.pc t p'⟩ (h ++ e.toList)

/-- Runs a schedule; after each entry, the thread executes what needs no access. -/
def drive (rel : Bool) : RaConf R Nat → RHist → Sched R → Option (RaConf R Nat × RHist)
  | C, h, [] => some (C, h)
  | C, h, (t, ch) :: l =>
    if okB C.s (C.pc t) ch then
      match (raMach rel (program R Nat)).step t C.s (C.pc t) ch with
      | none => none
      | some (s', p', e) =>
        let x := taus rel t 100 ⟨s', upd C.pc t p'⟩ (h ++ e.toList)
        drive rel x.1 x.2 l
    else none

theorem tau_ok (w : RaSt R Nat) (p : RaPC R) : raOk w p .tau := by unfold raOk; split <;> trivial

theorem taus_steps {t f n : Nat} {C : RaConf R Nat} {h : RHist} (hx : RaTextExec R rel n h C) :
    RaTextExec R rel n (taus rel t f C h).2 (taus rel t f C h).1 := by
  induction f generalizing C h with
  | zero => exact hx
  | succ f ih =>
    unfold taus
    split
    · exact hx
    · rename_i hs
      exact ih (.step hx hs (tau_ok ..))

theorem drive_steps {n : Nat} {sched : Sched R} {C C₁ : RaConf R Nat} {h h' : RHist} (hx : RaTextExec R rel n h C)
    (hr : drive rel C h sched = some (C₁, h')) : RaTextExec R rel n h' C₁ := by
  induction sched generalizing C h with
  | nil => simp [drive] at hr; obtain ⟨rfl, rfl⟩ := hr; exact hx
  | cons a l ih =>
    obtain ⟨t, ch⟩ := a
    simp only [drive] at hr
    split at hr
    · rename_i hb
      split at hr
      · simp at hr
      · rename_i s' p' e hs
        exact ih (taus_steps (.step hx hs (okB_spec hb))) hr
    · simp at hr

abbrev run (R : Rep) (rel : Bool) (sched : Sched R) : Option (RaConf R Nat × RHist) := drive rel (RaConf.initial R Nat 1) [] sched

/-- A schedule gives an execution. -/
theorem exec_of {sched : Sched R} {h : History (Op Nat) (Ret Nat)} (hr : (run R rel sched).map (fun x => bare x.2) = some h) :
    ∃ hw C, run R rel sched = some (C, hw) ∧ RaTextExec R rel 1 hw C ∧ bare hw = h := by
  simp only [Option.map_eq_some_iff] at hr
  obtain ⟨⟨C, hw⟩, h1, h2⟩ := hr
  exact ⟨hw, C, h1, drive_steps (.refl _) h1, h2⟩

def go (t k : Nat) : Sched R := List.replicate k (t, .act .go)
def rd (t i : Nat) : Sched R := [(t, .read false i)]

/-- `push(v)` of thread `t` up to the loop: reads message `i` of `pool_`; then message `m` of the `next` word of the new node. The node comes from the
pool (`k = 2`) or from the allocator (`k = 1`). -/
def prep (t v k i m : Nat) : Sched R := (t, .call (.push false v)) :: rd t i ++ go t (k + 1) ++ rd t m ++ go t 1

/-- The loop of `push`: reads message `j` of `tail_` and message `x` of the `next` word of that node. -/
def link (t j x : Nat) : Sched R := rd t j ++ rd t x ++ rd t j ++ go t 1

def push (t v k i m j x : Nat) : Sched R := prep t v k i m ++ link t j x ++ go t 1

/-- `pop` of thread `t` reads message `i` of `head_`, `j` of `tail_`, `x` of the `next` word of the dummy; `k`: message of `pool_`. If the queue appears
to be empty, this is all. -/
def look (t i j x : Nat) : Sched R := (t, .call .pop) :: rd t i ++ rd t j ++ rd t x ++ rd t i
def pop (t i j x k : Nat) : Sched R := look t i j x ++ go t 3 ++ rd t k ++ go t 2

/-! ### A stale read -/

/-- Thread 0 pushes; afterwards thread 1, which has not synchronised with thread 0, pops. -/
def staleSched : Sched R := push 0 1 2 0 0 0 0 ++ look 1 0 0 0

set_option maxRecDepth 8000 in
/-- **C63 (what does not hold).** Without synchronisation between the clients, the histories of the program text under the release/acquire memory model are
not linearizable in the usual sense: a `pop` may report an empty queue although an earlier `push` has already returned. -/
theorem queue_ra_text_not_realtime :
    ∃ (h : RHist) (C : RaConf cRep Nat), RaTextExec cRep true 1 h C ∧ ¬ Linearizable (spec Nat cRep.fixed) (bare h) := by
  obtain ⟨h, C, _, h1, h2⟩ := exec_of (R := cRep) (rel := true) (sched := staleSched) (h := WEx.staleHist) rfl
  exact ⟨h, C, h1, h2 ▸ not_linearizable (WEx.specNext false) (WEx.specNext_spec false) (by rfl)⟩

set_option maxRecDepth 8000 in
/-- It is linearizable with respect to happens-before. -/
example : ∃ h : RHist, bare h = WEx.staleHist ∧ HbLinearizable (spec Nat false) (HB h) (bare h) := by
  obtain ⟨h, C, _, h1, h2⟩ := exec_of (R := cRep) (rel := true) (sched := staleSched) (h := WEx.staleHist) rfl
  exact ⟨h, h2, queue_ra_text_linearizable cRep_faithful (by decide) h1⟩

/-! ### Synchronised clients -/

/-- Thread 0 pushes two values and releases its view; thread 1 acquires it and pops; then the other way round. -/
def syncSched : Sched R :=
  push 0 1 2 0 0 0 0 ++ push 0 2 1 1 0 1 1 ++ [(0, .post), (1, .wait 0)] ++ pop 1 0 2 1 1 ++ [(1, .post), (0, .wait 1)] ++
  pop 0 1 2 2 2 ++ look 0 2 2 1

theorem exec_sync {sched : Sched R} {h : History (Op Nat) (Ret Nat)}
    (hr : (run R rel sched).map (fun x => (bare x.2, WEx.syncB x.2)) = some (h, true)) :
    ∃ (hw : RHist) (C : RaConf R Nat), run R rel sched = some (C, hw) ∧ RaTextExec R rel 1 hw C ∧ bare hw = h ∧ WEx.syncB hw = true := by
  simp only [Option.map_eq_some_iff, Prod.mk.injEq] at hr
  obtain ⟨⟨C, hw⟩, h1, h2, h3⟩ := hr
  exact ⟨hw, C, h1, drive_steps (.refl _) h1, h2, h3⟩

set_option maxRecDepth 8000 in
theorem sync_exec : ∃ (h : RHist) (C : RaConf cRep Nat), RaTextExec cRep true 1 h C ∧ bare h = WEx.syncHist ∧ WEx.syncB h = true ∧
    (C.pc 0 = .idle ∧ C.pc 1 = .idle) := by
  obtain ⟨h, C, h0, h1, h2, h3⟩ := exec_sync (R := cRep) (rel := true) (sched := syncSched) (h := WEx.syncHist) rfl
  have h4 : (run cRep true syncSched).map (fun x => x.1.pc 0) = some .idle := rfl
  have h5 : (run cRep true syncSched).map (fun x => x.1.pc 1) = some .idle := rfl
  rw [h0] at h4 h5
  exact ⟨h, C, h1, h2, h3, by simpa using h4, by simpa using h5⟩

example : Linearizable (spec Nat false) WEx.syncHist := by
  obtain ⟨h, C, h1, h2, h3, -⟩ := sync_exec
  exact h2 ▸ queue_ra_text_linearizable_sync cRep_faithful (by decide) h1 (WEx.syncB_spec h3)

/-- C63 (publication): the call that offered the popped value happens before the return of the pop. -/
example : ∃ h : RHist, bare h = WEx.syncHist ∧ ∃ i u o w, h[i]? = some (.inv u (o, w)) ∧ offeredBy o = some 1 ∧ HB h i 5 := by
  obtain ⟨h, C, h1, h2, -⟩ := sync_exec
  refine ⟨h, h2, ?_⟩
  have h3 : (bare h)[5]? = some (.res 1 (.popped (some 1))) := by rw [h2]; rfl
  simp only [bare, List.getElem?_map, Option.map_eq_some_iff] at h3
  obtain ⟨e, h4, h5⟩ := h3
  cases e <;> simp at h5
  rename_i t r
  obtain ⟨rfl, h5⟩ := h5
  exact queue_ra_text_publication cRep_faithful (by decide) h1 (r := r.1) (v := r.2) h4 (by rw [h5]; rfl)

/-! ### The non-atomic write of the freelist -/

/-- As `WEx.lostA`: thread 0 has loaded `tail_`, and the node it points to is popped and put into the freelist by thread 1. -/
def lostA : Sched R := prep 0 10 2 0 0 ++ rd 0 0 ++ push 1 20 1 1 0 0 0 ++ pop 1 0 1 1 1

/-- As `WEx.lostSched`: thread 0 reads the link of the node as the freelist wrote it, and an old value of `tail_`; it links its node to the free node and
returns. Then it waits for thread 1 and pops. -/
def lostSched : Sched R := lostA ++ [(1, .post)] ++ rd 0 2 ++ rd 0 0 ++ go 0 1 ++ rd 0 1 ++ [(0, .wait 0)] ++ look 0 1 1 1

set_option maxRecDepth 8000 in
/-- **C63 (what does not hold).** If a load that reads from the freelist's non-atomic write of a link (freelist.hpp:238, 595) synchronises with nothing
(`rel = false`), the program text may lose an element, although all calls are synchronised: each call happens after all calls that returned earlier. -/
theorem queue_ra_text_link_write_lost :
    ∃ (h : RHist) (C : RaConf cRep Nat), RaTextExec cRep false 1 h C ∧ ¬ HbLinearizable (spec Nat cRep.fixed) (HB h) (bare h) := by
  obtain ⟨h, C, -, h1, h2, h3⟩ := exec_sync (R := cRep) (rel := false) (sched := lostSched) (h := WEx.lostHist) rfl
  refine ⟨h, C, h1, fun ⟨L, hL⟩ => ?_⟩
  have hn : ¬ Linearizable (spec Nat false) WEx.lostHist := not_linearizable (WEx.specNext false) (WEx.specNext_spec false) (by rfl)
  refine hn (h2 ▸ ⟨L, hL.linearization fun j i t r t' o h4 h5 hji => ?_⟩)
  simp only [bare, List.getElem?_map, Option.map_eq_some_iff] at h4 h5
  obtain ⟨e, he, h6⟩ := h4
  obtain ⟨f, hf, h7⟩ := h5
  cases e <;> cases f <;> simp at h6 h7
  exact WEx.syncB_spec h3 j i _ _ _ _ he hf hji

set_option maxRecDepth 8000 in
/-- With `rel = true` this schedule is impossible. -/
example : (run cRep true lostSched).isNone = true := rfl
set_option maxRecDepth 8000 in
example : (run cRep true (lostA ++ rd 0 2)).isSome = true := rfl
set_option maxRecDepth 8000 in
example : (run cRep true (lostA ++ rd 0 2 ++ rd 0 0)).isNone = true := rfl

/-- As `WEx.tornSched`: thread 0 reads a torn link, sees the new value of `tail_`, and tries again. -/
def tornSched (x : R.K.W) : Sched R :=
  lostA ++ [(0, .torn 2 2 x)] ++ rd 0 1 ++ link 0 1 1 ++ go 0 1 ++ [(0, .post), (1, .wait 0)] ++ pop 1 1 2 2 2

set_option maxRecDepth 8000 in
theorem torn_exec : ∃ (h : RHist) (C : RaConf cRep Nat), RaTextExec cRep true 1 h C ∧ bare h = WEx.tornHist := by
  obtain ⟨h, C, _, h1, h2⟩ := exec_of (R := cRep) (rel := true) (sched := tornSched 0xfff0fff0#64) (h := WEx.tornHist) rfl
  exact ⟨h, C, h1, h2⟩

set_option maxRecDepth 8000 in
theorem torn_exec_dcas : ∃ (h : RHist) (C : RaConf dRep Nat), RaTextExec dRep true 1 h C ∧ bare h = WEx.tornHist := by
  obtain ⟨h, C, _, h1, h2⟩ := exec_of (R := dRep) (rel := true) (sched := tornSched (⟨0xfff0fff0fff0fff0#64, 3#64⟩ : Pair 64 64)) (h := WEx.tornHist) rfl
  exact ⟨h, C, h1, h2⟩

/-! ### A racing speculative read -/

/-- As `WEx.raceSched`: thread 0 pushes. Thread 2 looks at the queue and is overtaken by thread 1, which pops the element. Thread 0 pushes and pops again,
which destroys the payload that thread 2 is about to read; thread 2 reads garbage, its compare-exchange fails, and it finds the queue empty. -/
def raceSched : Sched R :=
  push 0 1 2 0 0 0 0 ++ look 2 0 1 1 ++ pop 1 0 1 1 1 ++ push 0 2 2 2 2 1 1 ++ pop 0 1 2 2 3 ++
  [(2, .race (.garbage 99))] ++ rd 2 2 ++ rd 2 2 ++ rd 2 2 ++ rd 2 3 ++ rd 2 2

set_option maxRecDepth 8000 in
theorem race_exec : ∃ (h : RHist) (C : RaConf cRep Nat), RaTextExec cRep true 1 h C ∧ bare h = WEx.raceHist := by
  obtain ⟨h, C, _, h1, h2⟩ := exec_of (R := cRep) (rel := true) (sched := raceSched) (h := WEx.raceHist) rfl
  exact ⟨h, C, h1, h2⟩

set_option maxRecDepth 8000 in
theorem race_exec_index : ∃ (h : RHist) (C : RaConf (indexRep 2) Nat), RaTextExec (indexRep 2) true 1 h C ∧ bare h = WEx.raceHist := by
  obtain ⟨h, C, _, h1, h2⟩ := exec_of (R := indexRep 2) (rel := true) (sched := raceSched) (h := WEx.raceHist) rfl
  exact ⟨h, C, h1, h2⟩

set_option maxRecDepth 8000 in
/-- C63 (race freedom): thread 1 is about to exchange `head_`, which takes the node 0; the access of thread 0 to that node, in its fifth step, happens
before. -/
example : (run cRep true (push 0 1 2 0 0 0 0 ++ (look 1 0 1 1 ++ go 1 1))).map
    (fun x => (match x.1.pc 1 with
      | .run l (.stm (.acc a) :: _) => (match a.kind l with | .casTaking _ _ ns => ns | _ => [])
      | _ => [], x.1.s.acc 0, (x.1.s.view 1).vc 0)) = some ([0], [(0, 5)], 12) := rfl

/-! ### A sequentially consistent execution -/

section
variable {S L Ch O A : Type} {P : Program S L Ch O A} {Q : TChoice Ch O → Prop} {okc : S → O → Bool}

theorem tauRun_steps' (hq : Q .tau) {t f : Nat} {C₀ C : MConf S (TPC S L Ch A)} {h : History O A}
    (hx : MSteps P.mach (fun s p ch => Program.ok (fun _ _ => True) s p ch ∧ Q ch) C₀ h C) :
    MSteps P.mach (fun s p ch => Program.ok (fun _ _ => True) s p ch ∧ Q ch) C₀ (P.tauRun t f C h).2 (P.tauRun t f C h).1 := by
  induction f generalizing C h with
  | zero => exact hx
  | succ f ih =>
    unfold Program.tauRun
    split
    · exact hx
    · rename_i hs
      exact ih (.step hx hs ⟨Text.tau_ok .., hq⟩)

theorem drive_steps' (hq : Q .tau) {sched : List (Nat × TChoice Ch O)} (hs : ∀ x ∈ sched, Q x.2) {C₀ C C₁ : MConf S (TPC S L Ch A)} {h h' : History O A}
    (hx : MSteps P.mach (fun s p ch => Program.ok (fun _ _ => True) s p ch ∧ Q ch) C₀ h C) (hr : P.drive okc C h sched = some (C₁, h')) :
    MSteps P.mach (fun s p ch => Program.ok (fun _ _ => True) s p ch ∧ Q ch) C₀ h' C₁ := by
  induction sched generalizing C h with
  | nil => simp [Program.drive] at hr; obtain ⟨rfl, rfl⟩ := hr; exact hx
  | cons a l ih =>
    obtain ⟨t, ch⟩ := a
    simp only [Program.drive] at hr
    split at hr
    · rename_i hb
      split at hr
      · simp at hr
      · rename_i s' p' e hs'
        exact ih (fun x hx => hs x (List.mem_cons_of_mem _ hx)) (tauRun_steps' hq (.step hx hs' ⟨Text.okB_spec (fun _ _ _ => trivial) hb,
          hs (t, ch) List.mem_cons_self⟩)) hr
    · simp at hr

end

/-- Thread 0 pushes, thread 1 pops. -/
def scSched : List (Nat × TChoice (SChoice cRep.K (Op Nat) Nat) (Op Nat)) := calls 0 (.push true 5) 11 ++ calls 1 .pop 10

def scHist : History (Op Nat) (Ret Nat) :=
  [.inv 0 (.push true 5), .res 0 (.pushed true), .inv 1 .pop, .res 1 (.popped (some 5))]

theorem scSched_plain : ∀ x ∈ scSched, Plain (R := cRep) x.2 := by
  intro x hx
  simp only [scSched, TextEx.calls, acts, List.cons_append, List.mem_cons, List.mem_append, List.mem_replicate] at hx
  rcases hx with rfl | ⟨-, rfl⟩ | rfl | ⟨-, rfl⟩ <;> exact trivial

set_option maxRecDepth 8000 in
/-- C63 (relation to C52) -/
example : ∃ (h' : RHist) (C' : RaConf cRep Nat), RaTextExec cRep true 1 h' C' ∧ bare h' = scHist := by
  have h0 : ((program cRep Nat).drive okc (TextEx.start cRep 1) [] scSched).map (·.2) = some scHist := rfl
  simp only [Option.map_eq_some_iff] at h0
  obtain ⟨⟨C, h⟩, h1, h2⟩ := h0
  cases h2
  obtain ⟨h', C', h3, h4, -⟩ := queue_ra_text_includes_sc cRep_faithful (by decide)
    (drive_steps' (Q := Plain (R := cRep)) trivial scSched_plain (.refl _) h1)
  exact ⟨h', C', h3, h4⟩

end Verif.Queue.Code.RaEx
