import Verif.Spsc.Contract

/-!
# Properties of `spsc_queue` under release/acquire memory (C01–C05, C07, C08)

All theorems quantify over all executions `Exec cfg h C` of one producer and one consumer with stale loads
permitted by release/acquire, exceptions of user code (restricted as described at `okSafe`), any element type, and any
capacity `N` with `1 ≤ N < 2^63` (`cfg.size = N + 1`).
-/

namespace Verif.Spsc
open Lin

variable {α : Type} {cfg : Cfg} {N : Nat} {C C₁ C₂ : Conf α} {h h' : History (Op α) (Ret α)}

/-! ## Vocabulary -/

/-- The elements a call of the producer added to the queue, according to its result. -/
def accepts : Op α × Ret α → List α
  | (.push v, .pushed true) => [v]
  | (.pushMany vs, .pushedMany k) => vs.take k
  | _ => []

/-- The elements a call of the consumer took out of the queue, according to its result. -/
def delivers : Op α × Ret α → List α
  | (.pop, .popped (some v)) => [v]
  | (.popMany _ _, .poppedMany vs) => vs
  | _ => []

/-- Everything the completed calls of the producer added. -/
def accepted (h : History (Op α) (Ret α)) : List α := (callsOf 0 h).flatMap accepts

/-- Everything the completed calls of the consumer took. -/
def delivered (h : History (Op α) (Ret α)) : List α := (callsOf 1 h).flatMap delivers

/-- The elements a call offers to the queue. -/
def offers : Op α → List α
  | .push v => [v]
  | .pushMany vs => vs
  | _ => []

/-- The pending call of thread `t`, if any. -/
def pendingOp (t : Nat) (h : History (Op α) (Ret α)) : Option (Op α) :=
  match (ofThread t h).getLast? with
  | some (.inv _ o) => some o
  | _ => none

/-- A queue constructed for `N` elements (spsc_queue.hpp:424, 544, 557, 569: `max_elements_( max_elements + 1 )`). -/
structure Holds (cfg : Cfg) (N : Nat) : Prop where
  size : cfg.size.toNat = N + 1
  small : N < 2 ^ 63

theorem Holds.cap (hN : Holds cfg N) : cfg.cap = N := by simp [Cfg.cap, hN.size]

theorem Holds.inv (hN : Holds cfg N) (hx : Exec cfg h C) : Inv cfg C :=
  hx.inv (by have := hN.size; omega) (by have := hN.size; have := hN.small; omega)

theorem Holds.start (hN : Holds cfg N) (hx : Start cfg C) :
    Inv cfg C ∧ C.s.acc = [] ∧ C.s.out = [] ∧ ∀ t, C.pc t = .idle :=
  hx.inv (by have := hN.size; omega) (by have := hN.size; have := hN.small; omega)

/-! ## The calls made so far and the state -/

theorem producerPost_acc {cap : Nat} {s₁ s₂ : St α} {o r} (h : producerPost cap s₁ s₂ o r) :
    s₂.acc = s₁.acc ++ accepts (o, r) := by
  unfold producerPost at h
  split at h
  · rename_i v b
    obtain ⟨k, _, _, h⟩ := h; rw [h]; cases b <;> simp [accepts]
  · obtain ⟨k, _, _, h⟩ := h; rw [h]; rfl
  · rw [h.2.2.2]; simp [accepts]
  · obtain ⟨k, _, _, h⟩ := h; rw [h]; simp [accepts]
  · rw [h]; simp [accepts]
  · rw [h]; simp [accepts]
  · exact h.elim

theorem consumerPost_out {s₁ s₂ : St α} {o r} (h : consumerPost s₁ s₂ o r) :
    s₂.out = s₁.out ++ delivers (o, r) ∧ s₂.rel = s₁.rel + (delivers (o, r)).length := by
  unfold consumerPost at h
  split at h
  · exact ⟨by simp [delivers, h.2.2], by simp [delivers, h.2.1]⟩
  · exact ⟨h.2.2.2, h.2.2.1⟩
  · obtain ⟨k, _, _, _, _, h1, h2⟩ := h; exact ⟨h2, h1⟩
  · exact ⟨by simp [delivers, h.2.2.2], by simp [delivers, h.2.2.1]⟩
  · obtain ⟨k, _, _, h⟩ := h; exact ⟨by simp [delivers, h.2], by simp [delivers, h.1]⟩
  · exact ⟨by simp [delivers, h.2.2.2], by simp [delivers, h.2.2.1]⟩
  · exact ⟨by simp [delivers, h.2.2], by simp [delivers, h.2.1]⟩
  · exact ⟨by simp [delivers, h.2], by simp [delivers, h.1]⟩
  · exact ⟨by simp [delivers, h.2], by simp [delivers, h.1]⟩
  · exact h.elim

theorem midP_idle {s₁ s : St α} {o} : ¬ midP cfg s₁ o s .idle := id
theorem midC_idle {s₁ s : St α} {o} : ¬ midC cfg s₁ o s .idle := fun h => h.2

theorem pendingOp_none {t cs} (hd : Did t h cs none) : pendingOp t h = none := by
  have : ∀ cs : List (Op α × Ret α), ∀ o, (callEvents t cs).getLast? ≠ some (.inv t o) := by
    intro cs
    induction cs with
    | nil => simp [callEvents]
    | cons x l ih =>
      intro o
      obtain ⟨o', r⟩ := x
      cases l with
      | nil => simp [callEvents]
      | cons y l => obtain ⟨_, _⟩ := y; simpa [callEvents] using ih o
  simp only [Did] at hd
  unfold pendingOp
  rw [hd]
  have hmem : ∀ cs : List (Op α × Ret α), ∀ e ∈ callEvents t cs, e.tid = t := by
    intro cs
    induction cs with
    | nil => simp [callEvents]
    | cons x l ih => obtain ⟨o', r⟩ := x; simp [callEvents, Event.tid]; exact ih
  split
  · rename_i t' o heq
    have h1 := hmem cs _ (List.mem_of_getLast? heq)
    simp only [Event.tid] at h1
    subst h1
    exact absurd heq (this cs o)
  · rfl

theorem pendingOp_some {t cs o} (hd : Did t h cs (some o)) : pendingOp t h = some o := by
  simp only [Did] at hd
  unfold pendingOp
  rw [hd]
  simp

theorem accepts_prefix (o : Op α) (r) : accepts (o, r) <+: offers o := by
  unfold accepts
  split
  · rename_i heq; cases heq; exact List.prefix_refl _
  · rename_i heq; cases heq; exact List.take_prefix _ _
  · exact List.nil_prefix

/-- While a call of the producer is running, the elements it has added are a prefix of those it offers. -/
theorem midP_acc {s₁ s : St α} {o p} (hm : midP cfg s₁ o s p) : ∃ l, s.acc = s₁.acc ++ l ∧ l <+: offers o := by
  have hb : baseP s₁ s → ∃ l, s.acc = s₁.acc ++ l ∧ l <+: offers o :=
    fun h => ⟨[], by rw [h.1, List.append_nil], List.nil_prefix⟩
  cases p <;> simp only [midP] at hm
  case push1 | push2 | rng1 | rng2 | rngUnwind | wav1 | wav2 | emp1 | emp2 => exact hb hm.2
  case push3 | push4 | emp3 => exact hb hm.2.1
  case rngCopy | rngStore => obtain ⟨_, _, h, _⟩ := hm; exact hb h
  case ret r => exact ⟨_, producerPost_acc hm.2, accepts_prefix o r⟩

/-- The calls that take elements. -/
def takes : Op α → Prop
  | .pop | .popMany _ _ => True
  | _ => False

theorem delivers_takes {o : Op α} {r} (h : delivers (o, r) ≠ []) : takes o := by
  unfold delivers at h
  split at h
  · rename_i heq; cases heq; trivial
  · rename_i heq; cases heq; trivial
  · simp at h

theorem midC_out {s₁ s : St α} {o p} (hm : midC cfg s₁ o s p) :
    ∃ l, s.out = s₁.out ++ l ∧ (l ≠ [] → takes o) ∧ s₁.rel ≤ s.rel := by
  have hm := hm.2
  have hb : Untaken s₁ s → ∃ l, s.out = s₁.out ++ l ∧ (l ≠ [] → takes o) ∧ s₁.rel ≤ s.rel :=
    fun h => ⟨[], by rw [h.2, List.append_nil], fun h => absurd rfl h, by rw [h.1]; exact Nat.le_refl _⟩
  cases p <;> simp only at hm
  case one1 | bulk1 | rav1 | emp1 | emp3 | frt1 | frt3 | frt4 => exact hb hm.2
  case one2 | one3 | bulk2 | rav2 | emp2 | frt2 => exact hb hm.2.1
  case one4 | one5 => exact ⟨_, hm.2.2.1, fun _ => by rw [hm.1]; trivial, by rw [hm.2.1]; exact Nat.le_refl _⟩
  case bulkRead | bulkDestroy =>
    obtain ⟨_, h1, h2, h3, _⟩ := hm; exact ⟨_, h3, fun _ => by rw [h1]; trivial, by rw [h2]; exact Nat.le_refl _⟩
  case bulkStore =>
    obtain ⟨_, _, h1, h2, h3, _⟩ := hm; exact ⟨_, h3, fun _ => by rw [h1]; trivial, by rw [h2]; exact Nat.le_refl _⟩
  case ret r =>
    obtain ⟨h1, h2⟩ := consumerPost_out hm
    exact ⟨_, h1, delivers_takes, by rw [h2]; exact Nat.le_add_right _ _⟩

/-- What the history says about the producer's elements is what happened: `acc` is what its completed calls
reported as accepted, followed by what its pending call has already added. -/
theorem spsc_accepted (hN : Holds cfg N) (hx : Exec cfg h C) :
    ∃ l, C.s.acc = accepted h ++ l ∧ l <+: (pendingOp 0 h).elim [] offers ∧ (C.pc 0 = .idle → pendingOp 0 h = none) := by
  obtain ⟨C₀, h1, h2⟩ := hx
  obtain ⟨hi, ha, -, hid⟩ := hN.start h1
  obtain ⟨-, h3⟩ := h2.calls_rule (A := fun cs s => s.acc = cs.flatMap accepts) mach_lawful mach_calm
    (fun _ => by simp [mach]) .writeAvail producer_rule (fun _ _ _ => midP_idle) (fun s => ⟨rfl, Nat.le_refl _⟩)
    (fun cs s₁ s h1 h2 => by rw [h2.1, h1])
    (fun cs s₁ o r s h1 h2 => by rw [producerPost_acc h2.2, h1]; simp) hi (by simp [ha]) (hid 0)
  rcases h3 with ⟨h4, cs, h5, h6⟩ | ⟨cs, o, s₁, h4, h5, h6⟩
  · exact ⟨[], by simp [accepted, h5.callsOf, h6], List.nil_prefix, fun _ => pendingOp_none h5⟩
  · obtain ⟨l, h7, h8⟩ := midP_acc h6
    refine ⟨l, by rw [accepted, h4.callsOf, h7, h5], by rw [pendingOp_some h4]; exact h8, fun h => ?_⟩
    rw [h] at h6; exact absurd h6 midP_idle

/-- `out` is what the consumer's completed calls delivered, followed by what its pending call has already taken. -/
theorem spsc_delivered (hN : Holds cfg N) (hx : Exec cfg h C) :
    ∃ l, C.s.out = delivered h ++ l ∧ (l ≠ [] → ∃ o, pendingOp 1 h = some o ∧ takes o) ∧
      (C.pc 1 = .idle → pendingOp 1 h = none) ∧ (delivered h).length ≤ C.s.rel := by
  obtain ⟨C₀, h1, h2⟩ := hx
  obtain ⟨hi, ha, hb, hid⟩ := hN.start h1
  have hr : C₀.s.rel = 0 := by
    obtain ⟨_, _, _, h, _⟩ := hi
    have := h.hl
    rw [ha] at this
    simp at this
    exact this.1
  obtain ⟨-, h3⟩ := h2.calls_rule
    (A := fun cs s => s.out = cs.flatMap delivers ∧ s.rel = (cs.flatMap delivers).length) mach_lawful mach_calm
    (fun _ => by simp [mach]) .writeAvail consumer_rule (fun _ _ _ => midC_idle)
    (fun s => ⟨Nat.le_refl _, rfl, rfl⟩)
    (fun cs s₁ s h1 h2 => by rw [h2.2.1, h2.2.2]; exact h1)
    (fun cs s₁ o r s h1 h2 => by
      rw [(consumerPost_out h2.2).1, (consumerPost_out h2.2).2, h1.1, h1.2]; simp) hi (by simp [hb, hr]) (hid 1)
  rcases h3 with ⟨h4, cs, h5, h6⟩ | ⟨cs, o, s₁, h4, h5, h6⟩
  · exact ⟨[], by simp [delivered, h5.callsOf, h6.1], fun h => absurd rfl h, fun _ => pendingOp_none h5,
      by rw [delivered, h5.callsOf, h6.2]; exact Nat.le_refl _⟩
  · obtain ⟨l, h7, h8, h9⟩ := midC_out h6
    refine ⟨l, by rw [delivered, h4.callsOf, h7, h5.1], fun hl => ⟨o, pendingOp_some h4, h8 hl⟩, fun h => ?_,
      by rw [delivered, h4.callsOf, ← h5.2]; exact h9⟩
    rw [h] at h6; exact absurd h6 midC_idle

theorem Inv.out_prefix (hi : Inv cfg C) : C.s.out <+: C.s.acc := by
  obtain ⟨_, _, _, h, _⟩ := hi
  rw [h.out]; exact List.take_prefix _ _

/-! ## C01: first in, first out, exactly once -/

/-- C01. At every moment of every execution, the elements delivered to the consumer, in the order of delivery, are a
prefix of the elements accepted from the producer, in the order of acceptance; only a call of the producer that is
still running can have had elements delivered which are not yet reported as accepted. -/
theorem spsc_fifo (hN : Holds cfg N) (hx : Exec cfg h C) :
    ∃ inflight, inflight <+: (pendingOp 0 h).elim [] offers ∧ delivered h <+: accepted h ++ inflight := by
  obtain ⟨l, h1, h2, -⟩ := spsc_accepted hN hx
  obtain ⟨l', h3, -⟩ := spsc_delivered hN hx
  refine ⟨l, h2, ?_⟩
  rw [← h1]
  have h4 : delivered h <+: C.s.out := by rw [h3]; exact List.prefix_append _ _
  exact h4.trans (hN.inv hx).out_prefix

/-- C01, no call pending: what was delivered is a prefix of what was accepted, and the rest is still in the queue. -/
theorem spsc_fifo_quiescent (hN : Holds cfg N) (hx : Exec cfg h C) (h0 : C.pc 0 = .idle) (h1 : C.pc 1 = .idle) :
    C.s.acc = accepted h ∧ C.s.out = delivered h ∧ C.s.rel = (delivered h).length ∧
      accepted h = delivered h ++ C.s.acc.drop C.s.rel := by
  obtain ⟨l, h2, h3, h4⟩ := spsc_accepted hN hx
  obtain ⟨l', h5, h6, h7, h8⟩ := spsc_delivered hN hx
  have hl : l = [] := by rw [h4 h0] at h3; exact List.prefix_nil.1 h3
  have hl' : l' = [] := by
    rcases Decidable.em (l' = []) with h | h
    · exact h
    · exact absurd (h6 h) (by rw [h7 h1]; simp)
  subst hl hl'
  simp only [List.append_nil] at h2 h5
  obtain ⟨pre, gone, handed, hi, -, hC, -⟩ := hN.inv hx
  rw [h1] at hC
  obtain ⟨rfl, rfl⟩ := hC
  have h9 := hi.out
  have h10 : C.s.rel = (delivered h).length := by
    rw [← h5, h9]; simp; have := hi.hl; omega
  refine ⟨h2, h5, h10, ?_⟩
  rw [← h5, ← h2, h9]
  simp

/-! ## Calls in context -/

theorem Inv.evs (hi : Inv cfg C₁) (hx : MSteps (mach α cfg) okSafe C₁ h C₂) :
    (∀ k, k ≤ C₁.s.rlast → C₂.s.R k = C₁.s.R k) ∧ C₁.s.rlast ≤ C₂.s.rlast ∧ C₁.s.vp.r ≤ C₂.s.vp.r ∧
    (∀ k, k ≤ C₁.s.wlast → C₂.s.W k = C₁.s.W k) ∧ C₁.s.wlast ≤ C₂.s.wlast ∧ C₁.s.vc.w ≤ C₂.s.vc.w ∧
    C₁.s.acc <+: C₂.s.acc ∧ C₁.s.out <+: C₂.s.out := by
  induction hx with
  | refl => simp
  | step hx hs hok ih =>
    obtain ⟨a, b, c, d, e, f, g, i⟩ := ih
    have hi := hi.reach hx
    rcases hi.tid hs with rfl | rfl
    · have he := hi.ev0 hs
      exact ⟨fun k hk => by rw [he.R]; exact a k hk, by rw [he.rlast]; exact b, Nat.le_trans c he.vpr,
        fun k hk => (he.W k (Nat.le_trans hk e)).trans (d k hk), Nat.le_trans e he.wlast,
        by rw [he.vc]; exact f, g.trans he.acc, by rw [he.out]; exact i⟩
    · have he := hi.ev1 hs
      exact ⟨fun k hk => (he.R k (Nat.le_trans hk b)).trans (a k hk), Nat.le_trans b he.rlast, by rw [he.vp]; exact c,
        fun k hk => by rw [he.W]; exact d k hk, by rw [he.wlast]; exact e,
        Nat.le_trans f he.vcw, by rw [he.acc]; exact g, i.trans he.out⟩

theorem Inv.producer_call (hi : Inv cfg C₁) (h0 : C₁.pc 0 = .idle) (hx : MSteps (mach α cfg) okSafe C₁ h' C₂) {o r}
    (hc : ofThread 0 h' = [.inv 0 o, .res 0 r]) :
    Inv cfg C₂ ∧ C₂.pc 0 = .idle ∧ producerPost cfg.cap C₁.s C₂.s o r := by
  obtain ⟨h1, h2⟩ := hx.call_rule mach_lawful mach_calm (producer_rule C₁.s o) hi ⟨rfl, Nat.le_refl _⟩ h0
    (r := r) (hc ▸ List.prefix_refl _)
  rcases h2 with ⟨h, _⟩ | ⟨h, _⟩ | ⟨_, h3, h4⟩
  · rw [hc] at h; cases h
  · rw [hc] at h; cases h
  · exact ⟨h1, h3, h4.2⟩

theorem Inv.consumer_call (hi : Inv cfg C₁) (h0 : C₁.pc 1 = .idle) (hx : MSteps (mach α cfg) okSafe C₁ h' C₂) {o r}
    (hc : ofThread 1 h' = [.inv 1 o, .res 1 r]) :
    Inv cfg C₂ ∧ C₂.pc 1 = .idle ∧ consumerPost C₁.s C₂.s o r := by
  obtain ⟨h1, h2⟩ := hx.call_rule mach_lawful mach_calm (consumer_rule C₁.s o) hi ⟨Nat.le_refl _, rfl, rfl⟩ h0
    (r := r) (hc ▸ List.prefix_refl _)
  rcases h2 with ⟨h, _⟩ | ⟨h, _⟩ | ⟨_, h3, h4⟩
  · rw [hc] at h; cases h
  · rw [hc] at h; cases h
  · exact ⟨h1, h3, h4.2⟩

/-! ## C02: capacity, and when a push fails -/

/-- C02. The queue never holds more than `N` elements: `out` is what was handed to the consumer so far. -/
theorem spsc_capacity (hN : Holds cfg N) (hx : Exec cfg h C) :
    C.s.acc.length ≤ C.s.out.length + N ∧ (accepted h).length ≤ C.s.out.length + N ∧
      (C.pc 1 = .idle → (accepted h).length ≤ (delivered h).length + N) := by
  obtain ⟨l, h1, -, -⟩ := spsc_accepted hN hx
  obtain ⟨l', h2, h3, h4, -⟩ := spsc_delivered hN hx
  have hc : C.s.acc.length ≤ C.s.out.length + N := by
    obtain ⟨_, _, _, hi, -⟩ := hN.inv hx
    have := hi.room
    have := hi.hl
    have := hN.size
    rw [hi.out]; simp; omega
  have hl := congrArg List.length h1
  simp only [List.length_append] at hl
  refine ⟨hc, by omega, fun h0 => ?_⟩
  have : l' = [] := by
    rcases Decidable.em (l' = []) with h | h
    · exact h
    · exact absurd (h3 h) (by rw [h4 h0]; simp)
  subst this
  simp only [List.append_nil] at h2
  rw [← h2]; omega

/-- C02, C05. What every call of the producer does, whatever the consumer does meanwhile: see `producerPost`. In
particular `push` and bulk `push` accept exactly what fits into the room the producer sees, and the room it sees is
that left by some release not older than the last one it knew of when it made the call. -/
theorem spsc_producer_call (hN : Holds cfg N) (hx : Exec cfg h C₁) (h0 : C₁.pc 0 = .idle)
    (hs : MSteps (mach α cfg) okSafe C₁ h' C₂) {o r} (hc : ofThread 0 h' = [.inv 0 o, .res 0 r]) :
    producerPost N C₁.s C₂.s o r := by
  have := ((hN.inv hx).producer_call h0 hs hc).2.2
  rwa [hN.cap] at this

/-- C02. If the producer knows of the last release and no release happens during the call, then the call works with
the exact number of free places. -/
theorem spsc_producer_exact (hN : Holds cfg N) (hx : Exec cfg h C₁) (h0 : C₁.pc 0 = .idle)
    (hs : MSteps (mach α cfg) okSafe C₁ h' C₂) {o r} (hc : ofThread 0 h' = [.inv 0 o, .res 0 r])
    (hk : C₁.s.vp.r = C₁.s.rlast) (hq : C₂.s.rlast = C₁.s.rlast) :
    (∀ v b, o = .push v → r = .pushed b → (b = true ↔ C₁.s.acc.length < C₁.s.rel + N)) ∧
    (∀ vs n, o = .pushMany vs → r = .pushedMany n → n = min vs.length (C₁.s.rel + N - C₁.s.acc.length)) ∧
    (∀ n, r = .writeAvail n → C₁.s.acc.length + n = C₁.s.rel + N) := by
  have hi := hN.inv hx
  have hp := spsc_producer_call hN hx h0 hs hc
  have he := hi.evs hs
  have hi2 := hi.reach hs
  have key : ∀ k, SeenReleased C₁.s C₂.s k → k = C₁.s.rel := by
    rintro k ⟨j, j1, j2, rfl⟩
    obtain ⟨_, _, _, h2, _⟩ := hi2
    have := h2.vpr
    have hj : j = C₁.s.rlast := by omega
    rw [he.1 j (by omega), hj, St.rel]
  refine ⟨?_, ?_, ?_⟩
  · rintro v b rfl rfl
    obtain ⟨k, h1, h2, -⟩ := hp
    rw [← key k h1]; exact h2
  · rintro vs n rfl rfl
    obtain ⟨k, h1, h2, -⟩ := hp
    rw [← key k h1]; exact h2
  · rintro n rfl
    cases o <;> try exact hp.elim
    obtain ⟨h1, h2, -⟩ := hp
    have := key _ h1
    omega

/-- C02, C05, C08. What every call of the consumer does, whatever the producer does meanwhile: see `consumerPost`. -/
theorem spsc_consumer_call (hN : Holds cfg N) (hx : Exec cfg h C₁) (h0 : C₁.pc 1 = .idle)
    (hs : MSteps (mach α cfg) okSafe C₁ h' C₂) {o r} (hc : ofThread 1 h' = [.inv 1 o, .res 1 r]) :
    consumerPost C₁.s C₂.s o r := ((hN.inv hx).consumer_call h0 hs hc).2.2

/-! ## C03: no undefined behaviour -/

/-- C03. No execution has a data race on a slot, an access outside the buffer, a read or destruction of a slot without
live object or a construction over a live object, and no loop that never ends. -/
theorem spsc_no_undefined_behaviour (hN : Holds cfg N) (hx : Exec cfg h C) (t : Nat) :
    C.pc t ≠ .err ∧ C.pc t ≠ .spin := by
  obtain ⟨pre, gone, handed, -, hP, hC, hI⟩ := hN.inv hx
  match t with
  | 0 => constructor <;> intro h0 <;> rw [h0] at hP <;> exact hP
  | 1 => constructor <;> intro h0 <;> rw [h0] at hC <;> exact hC
  | t + 2 => constructor <;> rw [hI t] <;> simp

/-! ## C04: construction and destruction -/

/-- C04, C05. When no call is in progress, the live objects are exactly the elements of the queue, each in its slot,
in order (non-trivial destructor: all other slots hold no object). -/
theorem spsc_slots (hN : Holds cfg N) (hx : Exec cfg h C) (h0 : C.pc 0 = .idle) (h1 : C.pc 1 = .idle) {q : Nat}
    (hq : C.s.rel ≤ q) (hq' : q ≤ C.s.rel + N) :
    (q < C.s.acc.length → C.s.cell (q % (N + 1)) = C.s.acc[q]?) ∧
    (C.s.acc.length ≤ q → cfg.trivial = false → C.s.cell (q % (N + 1)) = none) := by
  obtain ⟨pre, gone, handed, hi, hP, hC, hI⟩ := hN.inv hx
  rw [h1] at hC
  obtain ⟨rfl, rfl⟩ := hC
  rw [h0] at hP
  have hP : pre = [] := hP
  subst hP
  rw [← hN.size]
  have := hN.size
  exact ⟨fun h => hi.live q (by omega) h, fun h ht => hi.dead ht q hq (by omega) (.inr ⟨h, by simp⟩)⟩

/-- C04. Constructor and destructor calls balance: the objects constructed and not destroyed are as many as the
elements in the queue. -/
theorem spsc_balance (hN : Holds cfg N) (hx : Exec cfg h C) (h0 : C.pc 0 = .idle) (h1 : C.pc 1 = .idle)
    (ht : cfg.trivial = false) :
    C.s.ctor = C.s.dtor + ((accepted h).length - (delivered h).length) ∧
      (delivered h).length ≤ (accepted h).length := by
  obtain ⟨e1, -, e2, e3⟩ := spsc_fifo_quiescent hN hx h0 h1
  obtain ⟨pre, gone, handed, hi, hP, hC, hI⟩ := hN.inv hx
  rw [h1] at hC
  obtain ⟨rfl, rfl⟩ := hC
  rw [h0] at hP
  have hP : pre = [] := hP
  subst hP
  have := hi.bal ht
  rw [← e1, ← e2]
  exact ⟨by simpa using this, by simpa using hi.hl⟩

/-- C04, C09. `consume_all` and `pop` to an iterator, run while the producer makes no call and by a thread which knows
everything the producer did: takes all elements. This is what the destructor (spsc_queue.hpp:447-452, 579-591) and, for
types with non-trivial destructor, `reset()` (1029-1034) do: afterwards no element is alive and constructor and
destructor calls are equally many. -/
theorem spsc_drain (hN : Holds cfg N) (hx : Exec cfg h C₁) (h0 : C₁.pc 0 = .idle) (h1 : C₁.pc 1 = .idle)
    (hk : C₁.s.vc.w = C₁.s.wlast) (hs : MSteps (mach α cfg) okSafe C₁ h' C₂) (hp : ofThread 0 h' = []) {c r}
    (hc : ofThread 1 h' = [.inv 1 (.popMany c none), .res 1 r]) (hr : r ≠ .threw) :
    r = .poppedMany (C₁.s.acc.drop C₁.s.rel) ∧ C₂.s.acc = C₁.s.acc ∧ C₂.s.rel = C₂.s.acc.length ∧
      C₂.pc 0 = .idle ∧ C₂.pc 1 = .idle ∧
      (cfg.trivial = false → C₂.s.ctor = C₂.s.dtor ∧ ∀ i, i ≤ N → C₂.s.cell i = none) := by
  have hi := hN.inv hx
  obtain ⟨hi2, h2, h3⟩ := hi.consumer_call h1 hs hc
  have hev := hi.evs hs
  obtain ⟨-, h4⟩ := hs.call_rule mach_lawful mach_calm (producer_rule C₁.s .writeAvail) hi ⟨rfl, Nat.le_refl _⟩ h0
    (r := .threw) (by rw [hp]; exact List.nil_prefix)
  have h4 : C₂.pc 0 = .idle ∧ C₂.s.acc = C₁.s.acc := by
    rcases h4 with ⟨_, h4, h5⟩ | ⟨h, _⟩ | ⟨h, _⟩
    · exact ⟨h4, h5.1⟩
    · rw [hp] at h; cases h
    · rw [hp] at h; cases h
  cases r <;> try exact h3.elim
  case threw => exact absurd rfl hr
  case poppedMany vs =>
  obtain ⟨k, ⟨j, j1, j2, rfl⟩, k2, k3, k4, k5, k6⟩ := h3
  obtain ⟨pre, gone, handed, hj, hP, hC, hI⟩ := hi2
  obtain ⟨_, _, _, hi1, -⟩ := hi
  have e1 : (C₂.s.W j).cnt = C₁.s.acc.length := by
    have := hj.cnt_le (k := j) (Nat.le_trans j2 hj.vcw)
    have e2 := hj.wmono C₁.s.wlast j (by omega) (Nat.le_trans j2 hj.vcw)
    rw [hev.2.2.2.1 _ (Nat.le_refl _), hi1.wcnt] at e2
    rw [h4.2] at this
    omega
  rw [e1] at k3
  simp only [atMost] at k3
  rw [h4.2] at k4
  have hvs : vs = C₁.s.acc.drop C₁.s.rel := k4.eq_of_length (by simp [k3])
  have hrel : C₂.s.rel = C₂.s.acc.length := by rw [k5, h4.2]; omega
  refine ⟨by rw [hvs], h4.2, hrel, h4.1, h2, fun ht => ?_⟩
  have h2 : C₂.pc 1 = .idle := h2
  rw [h2] at hC
  obtain ⟨rfl, rfl⟩ := hC
  rw [h4.1] at hP
  have hP : pre = [] := hP
  subst hP
  have hb := hj.bal ht
  refine ⟨by rw [hb, hrel]; simp, fun i hi' => ?_⟩
  have hsz := hN.size
  -- the number `q` of the element which would be next in slot `i`
  have hq : ∃ q, C₂.s.rel ≤ q ∧ q < C₂.s.rel + cfg.size.toNat ∧ q % cfg.size.toNat = i := by
    have hlt : i < cfg.size.toNat := by omega
    have hm := Nat.mod_lt C₂.s.rel (show 0 < cfg.size.toNat by omega)
    have hd := Nat.div_add_mod C₂.s.rel cfg.size.toNat
    generalize C₂.s.rel % cfg.size.toNat = m at hm hd
    generalize hD : C₂.s.rel / cfg.size.toNat = D at hd
    rcases Nat.lt_or_ge i m with hl | hl
    · refine ⟨cfg.size.toNat * (D + 1) + i, ?_, ?_, ?_⟩
      · rw [Nat.mul_add]; omega
      · rw [Nat.mul_add]; omega
      · rw [Nat.mul_add_mod]; exact Nat.mod_eq_of_lt hlt
    · refine ⟨cfg.size.toNat * D + i, by omega, by omega, ?_⟩
      rw [Nat.mul_add_mod]; exact Nat.mod_eq_of_lt hlt
  obtain ⟨q, q1, q2, q3⟩ := hq
  rw [← q3]
  exact hj.dead ht q q1 q2 (.inr ⟨by omega, by simp⟩)

/-! ## C09: reset -/

/-- C09, trivially destructible element type: after `reset()` the queue is empty. (Its properties from then on are
those of all executions from a `Start`.) -/
theorem spsc_reset_trivial (hx : Exec cfg h C) (hid : ∀ t, C.pc t = .idle) (ht : cfg.trivial = true) :
    Exec cfg [] (⟨C.s.reset, C.pc⟩ : Conf α) ∧ C.s.reset.acc = [] ∧ C.s.reset.rel = 0 := by
  obtain ⟨C₀, h1, h2⟩ := hx
  exact ⟨⟨_, .reset h1 h2 hid ht, .refl _⟩, rfl, rfl⟩

/-- C09. Whenever all accepted elements were released (as after `reset()`) and the producer knows it, a bulk push of
up to `N` elements that does not throw accepts all of them: the queue has its full capacity. -/
theorem spsc_full_capacity (hN : Holds cfg N) (hx : Exec cfg h C₁) (h0 : C₁.pc 0 = .idle)
    (he : C₁.s.rel = C₁.s.acc.length) (hk : C₁.s.vp.r = C₁.s.rlast)
    (hs : MSteps (mach α cfg) okSafe C₁ h' C₂) {vs r} (hl : vs.length ≤ N)
    (hc : ofThread 0 h' = [.inv 0 (.pushMany vs), .res 0 r]) (hr : r ≠ .threw) :
    r = .pushedMany vs.length ∧ C₂.s.acc = C₁.s.acc ++ vs := by
  have hi := hN.inv hx
  have hp := spsc_producer_call hN hx h0 hs hc
  have hev := hi.evs hs
  have hi2 := hi.reach hs
  cases r <;> try exact hp.elim
  case threw => exact absurd rfl hr
  case pushedMany n =>
  obtain ⟨k, ⟨j, j1, j2, rfl⟩, h2, h3⟩ := hp
  obtain ⟨_, _, _, hj, -⟩ := hi2
  have e2 := hj.rmono C₁.s.rlast j (by omega) (Nat.le_trans j2 hj.vpr)
  rw [hev.1 _ (Nat.le_refl _)] at e2
  have e2 : C₁.s.rel ≤ (C₂.s.R j).cnt := e2
  have hn : n = vs.length := by rw [h2]; omega
  subst hn
  exact ⟨rfl, by rw [h3, List.take_length]⟩

/-! ## C07: availability queries -/

/-- All calls in `cs`, made one after the other by the producer, are served from at least `n` free places: each
accepts all it offers as long as the places last, or throws; and later queries confirm it. -/
def PushesServed : Nat → List (Op α × Ret α) → Prop
  | _, [] => True
  | n, c :: cs => (c.2 = .threw ∨ min n (offers c.1).length ≤ (accepts c).length) ∧
      (∀ m, c.2 = .writeAvail m → n ≤ m) ∧ PushesServed (n - (accepts c).length) cs

/-- What a call of the consumer gets if `n` elements are there. -/
def wants : Op α → Nat → Nat
  | .pop, n => min 1 n
  | .popMany _ lim, n => atMost lim n
  | _, _ => 0

/-- All calls in `cs`, made one after the other by the consumer, are served from at least `n` elements. -/
def PopsServed : Nat → List (Op α × Ret α) → Prop
  | _, [] => True
  | n, c :: cs => (c.2 = .threw ∨ wants c.1 n ≤ (delivers c).length) ∧
      (∀ m, c.2 = .readAvail m → n ≤ m) ∧ (0 < n → c.2 ≠ .isEmpty true ∧ c.2 ≠ .asserted) ∧
      PopsServed (n - (delivers c).length) cs

/-- The producer knows of `n` free places. -/
def Room (N : Nat) (s : St α) (n : Nat) : Prop := s.acc.length + n ≤ (s.R s.vp.r).cnt + N

/-- The consumer knows of `n` elements. -/
def Stock (s : St α) (n : Nat) : Prop := s.rel + n ≤ (s.W s.vc.w).cnt

theorem Inv.seenReleased (hi : Inv cfg C₁) (hx : MSteps (mach α cfg) okSafe C₁ h C₂) {k}
    (hk : SeenReleased C₁.s C₂.s k) : (C₁.s.R C₁.s.vp.r).cnt ≤ k ∧ k ≤ (C₂.s.R C₂.s.vp.r).cnt := by
  obtain ⟨j, h1, h2, rfl⟩ := hk
  have he := hi.evs hx
  obtain ⟨_, _, _, h3, -⟩ := hi.reach hx
  obtain ⟨_, _, _, h4, -⟩ := hi
  refine ⟨?_, h3.rmono _ _ h2 h3.vpr⟩
  rw [← he.1 _ h4.vpr]
  exact h3.rmono _ _ h1 (Nat.le_trans h2 h3.vpr)

theorem Inv.seenAccepted (hi : Inv cfg C₁) (hx : MSteps (mach α cfg) okSafe C₁ h C₂) {k}
    (hk : SeenAccepted C₁.s C₂.s k) : (C₁.s.W C₁.s.vc.w).cnt ≤ k ∧ k ≤ (C₂.s.W C₂.s.vc.w).cnt := by
  obtain ⟨j, h1, h2, rfl⟩ := hk
  have he := hi.evs hx
  obtain ⟨_, _, _, h3, -⟩ := hi.reach hx
  obtain ⟨_, _, _, h4, -⟩ := hi
  refine ⟨?_, h3.wmono _ _ h2 h3.vcw⟩
  rw [← he.2.2.2.1 _ h4.vcw]
  exact h3.wmono _ _ h1 (Nat.le_trans h2 h3.vcw)

theorem Inv.knownR (hi : Inv cfg C₁) (hx : MSteps (mach α cfg) okSafe C₁ h C₂) :
    (C₁.s.R C₁.s.vp.r).cnt ≤ (C₂.s.R C₂.s.vp.r).cnt :=
  Nat.le_trans (hi.seenReleased hx ⟨_, Nat.le_refl _, (hi.evs hx).2.2.1, rfl⟩).1
    (hi.seenReleased hx ⟨_, Nat.le_refl _, (hi.evs hx).2.2.1, rfl⟩).2

theorem Inv.knownW (hi : Inv cfg C₁) (hx : MSteps (mach α cfg) okSafe C₁ h C₂) :
    (C₁.s.W C₁.s.vc.w).cnt ≤ (C₂.s.W C₂.s.vc.w).cnt :=
  Nat.le_trans (hi.seenAccepted hx ⟨_, Nat.le_refl _, (hi.evs hx).2.2.2.2.2.1, rfl⟩).1
    (hi.seenAccepted hx ⟨_, Nat.le_refl _, (hi.evs hx).2.2.2.2.2.1, rfl⟩).2

theorem pushesServed {cs : List (Op α × Ret α)} (hcap : cfg.cap = N) : ∀ {n} {C₁ C₂ : Conf α} {h'},
    Inv cfg C₁ → C₁.pc 0 = .idle → MSteps (mach α cfg) okSafe C₁ h' C₂ →
    ofThread 0 h' = callEvents 0 cs → Room N C₁.s n → PushesServed n cs := by
  induction cs with
  | nil => intros; trivial
  | cons c cs ih =>
    obtain ⟨o, r⟩ := c
    intro n C₁ C₂ h' hi h0 hx hc hR
    obtain ⟨h₁, h₂, C, rfl, h3, h4, h5, h6⟩ := hx.split_calls (a := [.inv 0 o, .res 0 r]) (b := callEvents 0 cs)
      (by simpa [callEvents] using hc)
    obtain ⟨hi', h0', hp⟩ := hi.producer_call h0 h5 h3
    rw [hcap] at hp
    have hacc := producerPost_acc hp
    have hseen := fun k hk => hi.seenReleased h5 (k := k) hk
    simp only [Room] at hR
    refine ⟨?_, ?_, ih hi' h0' h6 h4 ?_⟩
    · unfold producerPost at hp
      split at hp
      · rename_i v b
        obtain ⟨k, k1, k2, -⟩ := hp
        have := hseen k k1
        cases n with
        | zero => simp
        | succ n =>
          have : b = true := k2.2 (by omega)
          subst this
          simp [accepts, offers]
      · rename_i vs n'
        obtain ⟨k, k1, k2, -⟩ := hp
        have := hseen k k1
        right
        simp [accepts, offers]
        omega
      · simp [offers]
      · simp [offers]
      · exact .inl rfl
      · exact .inl rfl
      · exact hp.elim
    · rintro m hm
      have hm : r = .writeAvail m := hm
      subst hm
      cases o <;> try exact hp.elim
      obtain ⟨k1, k2, k3, -⟩ := hp
      have := hseen _ k1
      omega
    · have hk := hi.knownR h5
      have hlen := congrArg List.length hacc
      obtain ⟨_, _, _, hj, -⟩ := hi'
      have := hj.seenR
      have : cfg.size.toNat = N + 1 := by have := hj.pos; simp only [Cfg.cap] at hcap; omega
      simp only [List.length_append] at hlen
      simp only [Room]
      omega

/-- C07. If the producer gets `n` from `write_available()`, then `n ≤ N` and its following pushes are served from these
`n` places, whatever the consumer does. -/
theorem spsc_write_available_reliable (hN : Holds cfg N) (hx : Exec cfg h C₁) (h0 : C₁.pc 0 = .idle)
    (hs : MSteps (mach α cfg) okSafe C₁ h' C₂) {n cs}
    (hc : ofThread 0 h' = callEvents 0 ((.writeAvail, .writeAvail n) :: cs)) : n ≤ N ∧ PushesServed n cs := by
  obtain ⟨h₁, h₂, C, rfl, h3, h4, h5, h6⟩ := hs.split_calls
    (a := [.inv 0 .writeAvail, .res 0 (.writeAvail n)]) (b := callEvents 0 cs) (by simpa [callEvents] using hc)
  have hi := hN.inv hx
  obtain ⟨hi', h0', k1, k2, k3, k4⟩ := hi.producer_call h0 h5 h3
  rw [hN.cap] at k1 k2 k3
  refine ⟨k3, pushesServed hN.cap hi' h0' h6 h4 ?_⟩
  have := hi.seenReleased h5 k1
  simp only [Room, k4]
  omega

theorem popsServed {cs : List (Op α × Ret α)} : ∀ {n} {C₁ C₂ : Conf α} {h'},
    Inv cfg C₁ → C₁.pc 1 = .idle → MSteps (mach α cfg) okSafe C₁ h' C₂ →
    ofThread 1 h' = callEvents 1 cs → Stock C₁.s n → PopsServed n cs := by
  induction cs with
  | nil => intros; trivial
  | cons c cs ih =>
    obtain ⟨o, r⟩ := c
    intro n C₁ C₂ h' hi h0 hx hc hR
    obtain ⟨h₁, h₂, C, rfl, h3, h4, h5, h6⟩ := hx.split_calls (a := [.inv 1 o, .res 1 r]) (b := callEvents 1 cs)
      (by simpa [callEvents] using hc)
    obtain ⟨hi', h0', hp⟩ := hi.consumer_call h0 h5 h3
    have hout := (consumerPost_out hp).2
    have hseen := fun k hk => hi.seenAccepted h5 (k := k) hk
    simp only [Stock] at hR
    refine ⟨?_, ?_, ?_, ih hi' h0' h6 h4 ?_⟩
    · unfold consumerPost at hp
      split at hp
      · have := hseen _ hp.1
        right; simp [wants]; omega
      · right; simp [wants, delivers]; omega
      · obtain ⟨k, k1, k2, k3, -⟩ := hp
        have := hseen k k1
        rename_i lim vs
        right
        simp only [wants, delivers, k3]
        cases lim <;> simp only [atMost] <;> omega
      · simp [wants]
      · simp [wants]
      · simp [wants]
      · simp [wants]
      · exact .inl rfl
      · exact .inl rfl
      · exact hp.elim
    · rintro m hm
      have hm : r = .readAvail m := hm
      subst hm
      cases o <;> try exact hp.elim
      have := hseen _ hp.1
      omega
    · intro hn
      constructor
      · intro hm
        have hm : r = .isEmpty true := hm
        subst hm
        cases o <;> try exact hp.elim
        obtain ⟨k, k1, k2, -⟩ := hp
        have := hseen _ k1
        have := k2.1 rfl
        omega
      · intro hm
        have hm : r = .asserted := hm
        subst hm
        cases o <;> try exact hp.elim
        rename_i b
        cases b
        · exact hp.elim
        · have := hseen _ hp.1
          omega
    · have hk := hi.knownW h5
      obtain ⟨_, _, _, hj, -⟩ := hi'
      have := hj.seenW
      simp only [Stock]
      omega

/-- C07. If the consumer gets `n` from `read_available()`, then `n ≤ N` and its following calls are served from these
`n` elements, whatever the producer does; if `n > 0`, the precondition of `front()` holds. -/
theorem spsc_read_available_reliable (hN : Holds cfg N) (hx : Exec cfg h C₁) (h0 : C₁.pc 1 = .idle)
    (hs : MSteps (mach α cfg) okSafe C₁ h' C₂) {n cs}
    (hc : ofThread 1 h' = callEvents 1 ((.readAvail, .readAvail n) :: cs)) :
    n ≤ N ∧ PopsServed n cs ∧ (cs = [] → 0 < n → KnowsNonempty C₂.s) := by
  obtain ⟨h₁, h₂, C, rfl, h3, h4, h5, h6⟩ := hs.split_calls
    (a := [.inv 1 .readAvail, .res 1 (.readAvail n)]) (b := callEvents 1 cs) (by simpa [callEvents] using hc)
  have hi := hN.inv hx
  obtain ⟨hi', h0', k1, k2, k3⟩ := hi.consumer_call h0 h5 h3
  have hk := hi.seenAccepted h5 k1
  refine ⟨?_, popsServed hi' h0' h6 h4 (by simp only [Stock]; have := k3.1; omega), ?_⟩
  · obtain ⟨_, _, _, hj, -⟩ := hi'
    have h1 := hj.cnt_le hj.vcw
    have h2 := hj.room
    have h3 := hN.size
    have := k3.1
    omega
  · rintro rfl hn
    exact (hi.consumer_call (o := .readAvail) (r := .readAvail n) h0 hs (by simpa [callEvents] using hc)).2.2.2.1 hn

/-- C07. If `empty()` returns `false` to the consumer, its following calls are served from at least one element. -/
theorem spsc_not_empty_reliable (hN : Holds cfg N) (hx : Exec cfg h C₁) (h0 : C₁.pc 1 = .idle)
    (hs : MSteps (mach α cfg) okSafe C₁ h' C₂) {cs}
    (hc : ofThread 1 h' = callEvents 1 ((.isEmpty, .isEmpty false) :: cs)) : PopsServed 1 cs := by
  obtain ⟨h₁, h₂, C, rfl, h3, h4, h5, h6⟩ := hs.split_calls
    (a := [.inv 1 .isEmpty, .res 1 (.isEmpty false)]) (b := callEvents 1 cs) (by simpa [callEvents] using hc)
  have hi := hN.inv hx
  obtain ⟨hi', h0', k, k1, k2, k3⟩ := hi.consumer_call h0 h5 h3
  have hk := hi.seenAccepted h5 k1
  refine popsServed hi' h0' h6 h4 ?_
  have hs1 : C₁.s.rel ≤ k := by
    obtain ⟨_, _, _, hj, -⟩ := hi
    have := hj.seenW
    omega
  have : k ≠ C₁.s.rel := fun h => by simpa using k2.2 h
  simp only [Stock]
  have := k3.1
  omega

/-! ## C08: front -/

/-- C08. The element seen by `front()` is the first one delivered by the consumer's next call that takes elements and
does not throw, whatever the producer does meanwhile. -/
theorem spsc_front (hN : Holds cfg N) (hx : Exec cfg h C₁) (h0 : C₁.pc 1 = .idle)
    (hs : MSteps (mach α cfg) okSafe C₁ h' C₂) {b v o r}
    (hc : ofThread 1 h' = callEvents 1 [(.front b, .front v), (o, r)]) (ht : takes o)
    (hl : ∀ c, o ≠ .popMany c (some 0)) (hr : r ≠ .threw) : (delivers (o, r)).head? = some v := by
  obtain ⟨h₁, h₂, C, rfl, h3, h4, h5, h6⟩ := hs.split_calls
    (a := [.inv 1 (.front b), .res 1 (.front v)]) (b := [.inv 1 o, .res 1 r]) (by simpa [callEvents] using hc)
  have hi := hN.inv hx
  obtain ⟨hi', h0', ⟨k, k1, k2⟩, k3, k4⟩ := hi.consumer_call h0 h5 h3
  obtain ⟨hi2, -, hp⟩ := hi'.consumer_call h0' h6 h4
  have hk := hi.seenAccepted h5 k1
  have hev := hi'.evs h6
  have hget : C₂.s.acc[C.s.rel]? = some v := by rw [k4.1]; exact prefix_get hev.2.2.2.2.2.2.1 k3
  have hrel := k4.1
  cases o <;> try exact ht.elim
  · cases r <;> try exact hp.elim
    · rename_i w
      cases w with
      | none =>
        have := hi'.seenAccepted h6 hp.1
        omega
      | some w => rw [hp.2.1] at hget; simpa [delivers] using hget
    · exact absurd rfl hr
  · rename_i c lim
    cases r <;> try exact hp.elim
    · rename_i vs
      obtain ⟨k', m1, m2, m3, m4, -⟩ := hp
      have hk' := hi'.seenAccepted h6 m1
      have hpos : 0 < vs.length := by
        rw [m3]
        cases lim with
        | none => simp only [atMost]; omega
        | some l =>
          simp only [atMost]
          have : l ≠ 0 := fun h0 => hl c (by rw [h0])
          omega
      cases vs with
      | nil => simp at hpos
      | cons w l =>
        obtain ⟨z, hz⟩ := m4
        have h9 : (C₂.s.acc.drop C.s.rel)[0]? = some w := by rw [← hz]; simp
        rw [List.getElem?_drop, Nat.add_zero, hget] at h9
        simpa [delivers] using h9.symm
    · exact absurd rfl hr

end Verif.Spsc
