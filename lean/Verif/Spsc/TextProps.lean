import Verif.Spsc.TextSim
import Verif.Spsc.Progress

/-!
# The program text of `spsc_queue`: refinement, and what follows (C55)

No further code of /repo is modelled here.
-/

namespace Verif.Spsc.Code
open Lin Text

variable {α : Type} {cfg : Cfg} {sc : Bool} {N : Nat} {h h' : History (Op α) (Ret α)} {C C₁ C₂ : TConf α}

/-- What the configurations of text and machine have to do with each other: same shared state, each thread at corresponding places. -/
structure Same (cfg : Cfg) (sc : Bool) (C : TConf α) (D : Conf α) : Prop where
  s : D.s = C.s
  pc : ∀ t, ∃ n, Text.PCRel (mach α cfg) .err (At cfg sc) n (C.pc t) (D.pc t)

theorem Same.idle {D : Conf α} (h : Same cfg sc C D) {t} (ht : C.pc t = .idle) : D.pc t = .idle := by
  obtain ⟨_, h1⟩ := h.pc t
  rw [ht] at h1
  exact h1

theorem steps_safe {C₀ D : Conf α} (hx : MSteps (mach α cfg) (okText sc) C₀ h D) : MSteps (mach α cfg) okSafe C₀ h D :=
  hx.mono fun _ _ _ h => h.1

theorem text_inv (hN : Holds cfg N) {D : Conf α} (hx : Exec cfg h D) (t : Nat) : TextInv cfg t D.s (D.pc t) := by
  obtain ⟨pre, g, k, h1, h2, h3, h4⟩ := hN.inv hx
  refine ⟨pre, g, k, h1, ?_⟩
  match t with
  | 0 => exact h2
  | 1 => exact h3
  | t + 2 => exact h4 t

theorem TextStart.start (hN : Holds cfg N) {s : St α} (hs : TextStart cfg sc s) : Start cfg ⟨s, fun _ => .idle⟩ := by
  induction hs with
  | fresh => exact .fresh
  | @reset s h C _ hx hq ht ih =>
    obtain ⟨D, h1, h2, h3⟩ := refines.steps (fun _ _ hx t => text_inv hN ⟨_, ih, steps_safe hx⟩ t) hx
    have h4 : ∀ t, D.pc t = .idle := fun t => (⟨h2, h3⟩ : Same cfg sc C D).idle (hq t)
    have h5 := Start.reset ih (steps_safe h1) h4 ht
    rw [h2, show D.pc = fun _ => .idle from funext h4] at h5
    exact h5

/-- **C55.** Every execution of the program text is one of the machine, with the same history and the same shared state. -/
theorem spsc_text_refines (hN : Holds cfg N) (hx : TextExec cfg sc h C) :
    ∃ s₀ D, TextStart cfg sc s₀ ∧ MSteps (mach α cfg) (okText sc) ⟨s₀, fun _ => .idle⟩ h D ∧ Exec cfg h D ∧ Same cfg sc C D := by
  obtain ⟨s₀, h1, hx⟩ := hx
  have h2 := h1.start hN
  obtain ⟨D, h3, h4, h5⟩ := refines.steps (fun _ _ hx t => text_inv hN ⟨_, h2, steps_safe hx⟩ t) hx
  exact ⟨s₀, D, h1, h3, ⟨_, h2, steps_safe h3⟩, h4, h5⟩

/-- The same for a part of an execution. -/
theorem spsc_text_refines_part (hN : Holds cfg N) (hx : TextExec cfg sc h C₁)
    (hs : MSteps (program α cfg sc).mach (Program.ok okCall) C₁ h' C₂) :
    ∃ D₁ D₂, Exec cfg h D₁ ∧ Same cfg sc C₁ D₁ ∧ MSteps (mach α cfg) okSafe D₁ h' D₂ ∧ Same cfg sc C₂ D₂ := by
  obtain ⟨_, D₁, -, -, h1, h2⟩ := spsc_text_refines hN hx
  obtain ⟨D₂, h3, h4, h5⟩ := refines.extend (D₀ := D₁) (fun _ _ hx t => text_inv hN (h1.trans (steps_safe hx)) t) h2.s h2.pc hs
  exact ⟨D₁, D₂, h1, h2, steps_safe h3, h4, h5⟩

/-- **C55 (linearizability of the program text).** If loads return the latest store. -/
theorem spsc_text_linearizable (hN : Holds cfg N) (hx : TextExec cfg true h C) : Linearizable (spec α N) h := by
  obtain ⟨_, D, h1, h2, -⟩ := spsc_text_refines hN hx
  exact spsc_linearizable hN (h1.start hN) (h2.mono fun _ _ _ h => h.2.1 rfl)

/-- **C55 (no undefined behaviour of the program text).** -/
theorem spsc_text_no_undefined_behaviour (hN : Holds cfg N) (hx : TextExec cfg sc h C) (t : Nat) : C.pc t ≠ .err := by
  obtain ⟨_, D, -, -, h1, h2⟩ := spsc_text_refines hN hx
  intro he
  obtain ⟨_, h3⟩ := h2.pc t
  rw [he] at h3
  exact (spsc_no_undefined_behaviour hN h1 t).1 h3

/-- **C55 (first in, first out).** -/
theorem spsc_text_fifo (hN : Holds cfg N) (hx : TextExec cfg sc h C) :
    ∃ inflight, inflight <+: (pendingOp 0 h).elim [] offers ∧ delivered h <+: accepted h ++ inflight := by
  obtain ⟨_, D, -, -, h1, -⟩ := spsc_text_refines hN hx
  exact spsc_fifo hN h1

/-- **C55 (nothing lost).** -/
theorem spsc_text_fifo_quiescent (hN : Holds cfg N) (hx : TextExec cfg sc h C) (h0 : C.pc 0 = .idle) (h1 : C.pc 1 = .idle) :
    C.s.acc = accepted h ∧ C.s.out = delivered h ∧ C.s.rel = (delivered h).length ∧
      accepted h = delivered h ++ C.s.acc.drop C.s.rel := by
  obtain ⟨_, D, -, -, h2, h3⟩ := spsc_text_refines hN hx
  rw [← h3.s]
  exact spsc_fifo_quiescent hN h2 (h3.idle h0) (h3.idle h1)

/-- **C55 (what the slots hold).** -/
theorem spsc_text_slots (hN : Holds cfg N) (hx : TextExec cfg sc h C) (h0 : C.pc 0 = .idle) (h1 : C.pc 1 = .idle) {q : Nat}
    (hq : C.s.rel ≤ q) (hq' : q ≤ C.s.rel + N) :
    (q < C.s.acc.length → C.s.cell (q % (N + 1)) = C.s.acc[q]?) ∧
    (C.s.acc.length ≤ q → cfg.trivial = false → C.s.cell (q % (N + 1)) = none) := by
  obtain ⟨_, D, -, -, h2, h3⟩ := spsc_text_refines hN hx
  rw [← h3.s] at hq hq' ⊢
  exact spsc_slots hN h2 (h3.idle h0) (h3.idle h1) hq hq'

/-- **C55 (constructors and destructors balance).** -/
theorem spsc_text_balance (hN : Holds cfg N) (hx : TextExec cfg sc h C) (h0 : C.pc 0 = .idle) (h1 : C.pc 1 = .idle)
    (ht : cfg.trivial = false) :
    C.s.ctor = C.s.dtor + ((accepted h).length - (delivered h).length) ∧ (delivered h).length ≤ (accepted h).length := by
  obtain ⟨_, D, -, -, h2, h3⟩ := spsc_text_refines hN hx
  rw [← h3.s]
  exact spsc_balance hN h2 (h3.idle h0) (h3.idle h1) ht

/-- **C55 (calls of the producer).** -/
theorem spsc_text_producer_call (hN : Holds cfg N) (hx : TextExec cfg sc h C₁) (h0 : C₁.pc 0 = .idle)
    (hs : MSteps (program α cfg sc).mach (Program.ok okCall) C₁ h' C₂) {o r} (hc : ofThread 0 h' = [.inv 0 o, .res 0 r]) :
    producerPost N C₁.s C₂.s o r := by
  obtain ⟨D₁, D₂, h1, h2, h3, h4⟩ := spsc_text_refines_part hN hx hs
  rw [← h2.s, ← h4.s]
  exact spsc_producer_call hN h1 (h2.idle h0) h3 hc

/-- **C55 (calls of the consumer).** -/
theorem spsc_text_consumer_call (hN : Holds cfg N) (hx : TextExec cfg sc h C₁) (h0 : C₁.pc 1 = .idle)
    (hs : MSteps (program α cfg sc).mach (Program.ok okCall) C₁ h' C₂) {o r} (hc : ofThread 1 h' = [.inv 1 o, .res 1 r]) :
    consumerPost C₁.s C₂.s o r := by
  obtain ⟨D₁, D₂, h1, h2, h3, h4⟩ := spsc_text_refines_part hN hx hs
  rw [← h2.s, ← h4.s]
  exact spsc_consumer_call hN h1 (h2.idle h0) h3 hc

/-- **C55 (`write_available()` is reliable).** -/
theorem spsc_text_write_available_reliable (hN : Holds cfg N) (hx : TextExec cfg sc h C₁) (h0 : C₁.pc 0 = .idle)
    (hs : MSteps (program α cfg sc).mach (Program.ok okCall) C₁ h' C₂) {n cs}
    (hc : ofThread 0 h' = callEvents 0 ((.writeAvail, .writeAvail n) :: cs)) : n ≤ N ∧ PushesServed n cs := by
  obtain ⟨D₁, D₂, h1, h2, h3, -⟩ := spsc_text_refines_part hN hx hs
  exact spsc_write_available_reliable hN h1 (h2.idle h0) h3 hc

/-- **C55 (`read_available()` is reliable).** -/
theorem spsc_text_read_available_reliable (hN : Holds cfg N) (hx : TextExec cfg sc h C₁) (h0 : C₁.pc 1 = .idle)
    (hs : MSteps (program α cfg sc).mach (Program.ok okCall) C₁ h' C₂) {n cs}
    (hc : ofThread 1 h' = callEvents 1 ((.readAvail, .readAvail n) :: cs)) :
    n ≤ N ∧ PopsServed n cs ∧ (cs = [] → 0 < n → KnowsNonempty C₂.s) := by
  obtain ⟨D₁, D₂, h1, h2, h3, h4⟩ := spsc_text_refines_part hN hx hs
  rw [← h4.s]
  exact spsc_read_available_reliable hN h1 (h2.idle h0) h3 hc

/-- **C55 (`front()`).** -/
theorem spsc_text_front (hN : Holds cfg N) (hx : TextExec cfg sc h C₁) (h0 : C₁.pc 1 = .idle)
    (hs : MSteps (program α cfg sc).mach (Program.ok okCall) C₁ h' C₂) {b v o r}
    (hc : ofThread 1 h' = callEvents 1 [(.front b, .front v), (o, r)]) (ht : takes o)
    (hl : ∀ c, o ≠ .popMany c (some 0)) (hr : r ≠ .threw) : (delivers (o, r)).head? = some v := by
  obtain ⟨D₁, D₂, h1, h2, h3, -⟩ := spsc_text_refines_part hN hx hs
  exact spsc_front hN h1 (h2.idle h0) h3 hc ht hl hr

/-- **C56 (`spsc_queue`).** At the end of a call: if `pop` (`consume_one`) returns false, nothing was written to the output argument; if it takes an
element, exactly that one was. A bulk pop writes the elements it takes, in order, and nothing else. -/
theorem spsc_text_output (hN : Holds cfg N) (hx : TextExec cfg sc h C) {t : Nat} {l : Loc α} (ht : C.pc t = .run l []) :
    (∀ x, l.result = .popped x → l.out = x.toList) ∧ ∀ vs, l.result = .poppedMany vs → l.out = vs := by
  obtain ⟨_, D, -, -, -, hp⟩ := spsc_text_refines hN hx
  obtain ⟨_, h1⟩ := hp.pc t
  rw [ht] at h1
  obtain ⟨_, _, h1⟩ := h1
  have h3 : At cfg sc l [] (D.pc t) := Leads.stuck h1 rfl
  generalize D.pc t = p at h3
  generalize hk : ([] : LRest α) = k at h3
  have ho : Output l := by
    cases h3 with
    | fin _ ho => exact ho
    | _ => cases hk
  unfold Output at ho
  exact ⟨fun x hx => by simpa [hx] using ho, fun vs hx => by simpa [hx] using ho⟩

/-! ### Progress -/

theorem At.not_sync {l : Loc α} {a k p} (h : At cfg sc l (.stm (.acc a) :: k) p) {t : Nat} {s : St α} {ch z} (hr : a.run t s l ch = some z) :
    isSync ch = false := by
  cases ch <;> try rfl
  generalize hk : Item.stm (.acc a) :: k = K at h
  cases h <;> cases hk <;> cases hr

/-- **C55 (wait-freedom of the program text).** Every statement counts as a step. A call takes a number of steps bounded as in C10. -/
theorem spsc_text_wait_free (hN : Holds cfg N) (hx : TextExec cfg sc h C₁) {t : Nat} (ht : t ≤ 1) (h0 : C₁.pc t = .idle)
    {C₂ : MConf (St α × Nat) (TPC (St α) (Loc α) (Choice α) (Ret α))}
    (hs : MSteps ((program α cfg sc).mach.count (stepsOfThread t)) (fun s => Program.ok okCall s.1) ⟨(C₁.s, 0), C₁.pc⟩ h' C₂) {o r}
    (hc : ofThread t h' <+: [.inv t o, .res t r]) :
    C₂.s.2 ≤ 62 * maxSteps N o ∧ (ofThread t h' = [.inv t o, .res t r] → C₂.s.2 ≤ 62 * stepsOf N o r) := by
  obtain ⟨_, D₁, -, -, h1, h2⟩ := spsc_text_refines hN hx
  obtain ⟨D₂, h3, -, -, h4⟩ := refines.thread_steps (D₀ := D₁) (C₀ := C₁) (t := t) (w := ownSteps t)
    (fun ch hc => by cases ch <;> simp [ownSteps, isSync, isOut] at hc ⊢) (fun _ _ _ _ _ _ _ h => h.not_sync)
    (fun _ _ hx t => text_inv hN (h1.trans (steps_safe hx)) t) h2.s (h2.idle h0) h0 h2.pc hs
  obtain ⟨h5, h6⟩ := spsc_wait_free hN h1 ht (h2.idle h0) (h3.mono fun _ _ _ h => h.1) hc
  exact ⟨Nat.le_trans h4 (Nat.mul_le_mul_left _ h5), fun he => Nat.le_trans h4 (Nat.mul_le_mul_left _ (h6 he))⟩

theorem At.enabled {l : Loc α} {a k p} (h : At cfg sc l (.stm (.acc a) :: k) p) {t : Nat} {s : St α} (hI : TextInv cfg t s p) :
    ∃ j y, a.ok s l (.go j) = true ∧ a.run t s l (.go j) = some y := by
  generalize hk : Item.stm (.acc a) :: k = K at h
  cases h with
  | fin => cases hk
  | push1 | rng1 | wav1 =>
    cases hk
    obtain ⟨rfl, _, _, _, hi, -⟩ := hI.prod
    have := hi.vpw
    exact ⟨s.wlast, _, by simp [loadWrite, latest], by simp [loadWrite, St.loadWP, *]; rfl⟩
  | push2 | rng2 | wav2 =>
    cases hk
    obtain ⟨rfl, _, _, _, hi, -⟩ := hI.prod
    have := hi.vpr
    exact ⟨s.rlast, _, by simp [loadRead, latest], by simp [loadRead, St.loadRP, *]; rfl⟩
  | one1 | bulk1 | rav1 | frt1 =>
    cases hk
    obtain ⟨rfl, _, _, _, hi, -⟩ := hI.cons
    have := hi.vcw
    exact ⟨s.wlast, _, by simp [loadWrite, latest], by simp [loadWrite, St.loadWC, *]; rfl⟩
  | one2 | bulk2 | rav2 | frt2 | frt3 =>
    cases hk
    obtain ⟨rfl, _, _, _, hi, -⟩ := hI.cons
    have := hi.vcr
    exact ⟨s.rlast, _, by simp [loadRead, latest], by simp [loadRead, St.loadRC, *]; rfl⟩
  | emp1 =>
    cases hk
    obtain ⟨_, _, _, hi, -⟩ := hI
    have := hi.vpw
    have := hi.vcw
    by_cases ht : t = 0
    · exact ⟨s.wlast, _, by simp [loadEither, latest], by simp [loadEither, St.loadWP, *]; rfl⟩
    · exact ⟨s.wlast, _, by simp [loadEither, latest], by simp [loadEither, St.loadWC, *]; rfl⟩
  | emp3 =>
    cases hk
    obtain ⟨_, _, _, hi, -⟩ := hI
    have := hi.vpw
    have := hi.vcw
    by_cases ht : t = 0
    · exact ⟨s.wlast, _, by simp [loadWrite, latest], by simp [loadWrite, St.loadWP, *]; rfl⟩
    · exact ⟨s.wlast, _, by simp [loadWrite, latest], by simp [loadWrite, St.loadWC, *]; rfl⟩
  | emp2 =>
    cases hk
    obtain ⟨_, _, _, hi, -⟩ := hI
    have := hi.vpr
    have := hi.vcr
    by_cases ht : t = 0
    · exact ⟨s.rlast, _, by simp [loadRead, latest], by simp [loadRead, St.loadRP, *]; rfl⟩
    · exact ⟨s.rlast, _, by simp [loadRead, latest], by simp [loadRead, St.loadRC, *]; rfl⟩
  | push4 | rngStore | one5 | bulkStore => cases hk; exact ⟨0, _, rfl, rfl⟩
  | push3 | rngCopy => cases hk; refine ⟨0, ?_⟩; simp only [construct]; split <;> simp
  | rngUnwind | one4 | bulkDestroy => cases hk; refine ⟨0, ?_⟩; simp only [destroy]; split <;> simp
  | one3 | bulkCopy | bulkRead => cases hk; refine ⟨0, ?_⟩; simp only [take]; split <;> simp
  | frt4 => cases hk; refine ⟨0, ?_⟩; simp only [readFront]; split <;> simp

/-- **C55 (never stuck).** A thread in a call can always make a step, whatever the other one does. -/
theorem spsc_text_never_blocks (hN : Holds cfg N) (hx : TextExec cfg sc h C) {t : Nat} (ht : C.pc t ≠ .idle) :
    ∃ ch y, (ch = .tau ∨ ∃ j, ch = .act (.go j)) ∧ Program.ok okCall C.s (C.pc t) ch ∧
      (program α cfg sc).mach.step t C.s (C.pc t) ch = some y := by
  obtain ⟨_, D, -, -, h1, h2⟩ := spsc_text_refines hN hx
  obtain ⟨i, h3⟩ := h2.pc t
  have h4 := text_inv hN h1 t
  rw [h2.s] at h4
  generalize hq : C.pc t = q at h3 ht
  cases q with
  | idle => exact (ht rfl).elim
  | err => exact (spsc_text_no_undefined_behaviour hN hx t hq).elim
  | ret r => exact ⟨.tau, _, .inl rfl, by simp [Program.ok], rfl⟩
  | run l k =>
    obtain ⟨_, -, h3⟩ := h3
    cases hc : ctl l k with
    | some x =>
      refine ⟨.tau, (C.s, .run x.1 x.2, none), .inl rfl, by simp [Program.ok], ?_⟩
      cases k with
      | nil => simp [ctl] at hc
      | cons => simp [Program.mach, hc]
    | none =>
      have h5 := Leads.stuck h3 hc
      match k, hc with
      | [], _ => exact ⟨.tau, _, .inl rfl, by simp [Program.ok], rfl⟩
      | .stm (.acc a) :: k, _ =>
        obtain ⟨j, ⟨s', l', f⟩, h6, h7⟩ := h5.enabled h4
        cases f <;> exact ⟨.act (.go j), _, .inr ⟨j, rfl⟩, h6, by simp only [Program.mach, h7]; rfl⟩

/-! ### Conversely -/

/-- **C55 (same executions).** The text and the machine have the same histories and reach the same shared states. -/
theorem spsc_text_same (hN : Holds cfg N) {s₀ : St α} (h0 : TextStart cfg sc s₀) (s : St α) :
    (∃ C, MSteps (program α cfg sc).mach (Program.ok okCall) ⟨s₀, fun _ => .idle⟩ h C ∧ C.s = s) ↔
      ∃ D, MSteps (mach α cfg) (okText sc) ⟨s₀, fun _ => .idle⟩ h D ∧ D.s = s := by
  have hI : ∀ h D, MSteps (mach α cfg) (okText sc) ⟨s₀, fun _ => .idle⟩ h D → ∀ t, TextInv cfg t D.s (D.pc t) :=
    fun _ _ hx t => text_inv hN ⟨_, h0.start hN, steps_safe hx⟩ t
  constructor
  · rintro ⟨C, hx, rfl⟩
    obtain ⟨D, h1, h2, -⟩ := refines.steps hI hx
    exact ⟨D, h1, h2⟩
  · rintro ⟨D, hx, rfl⟩
    obtain ⟨C, h1, h2, -⟩ := refines.complete complete hI hx
    exact ⟨C, h1, h2⟩

end Verif.Spsc.Code
