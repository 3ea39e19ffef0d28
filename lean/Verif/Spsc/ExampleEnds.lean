import Verif.ExampleForever
import Verif.Spsc.Example

/-!
# examples/spsc_queue.cpp ends

Nothing further of the code is modelled here. Executions without end of the program of Spsc/Example.lean, under assumptions about the scheduler
and the memory that C++ recommends to implementations ([intro.progress], [atomics.order]).
-/

namespace Verif.Spsc.Code
open Lin Text Example

variable {cfg : Cfg} {sc : Bool} {N k : Nat} {h h' : History (Op Nat) (Ret Nat)}

/-- A thread of spsc_queue.cpp can make a step. -/
abbrev CanStep (cfg : Cfg) (sc : Bool) (k : Nat) (C : EConf) (u : Nat) : Prop :=
  Able (program Nat cfg sc).mach (exampleSetup k) (Program.ok okCall) C u

section
variable (cfg : Cfg) (sc : Bool) (k : Nat) (C : Nat → EConf) (t : Nat → Nat) (ch : Nat → Example.Choice (TChoice (Spsc.Choice Nat) (Op Nat)))
  (e : Nat → Option (Event (Op Nat) (Ret Nat)))

/-- An execution without end of spsc_queue.cpp in which no exception is thrown, on a fair scheduler. -/
structure ScheduledRun : Prop where
  /-- it is an execution of the producer (thread 0), the consumer (1) and `main` (2) -/
  exec : Forever (Example.mach (program Nat cfg sc).mach (exampleSetup k)) (okBy (program Nat cfg sc).mach (exampleSetup k) (Program.ok okCall)) 3 C t ch e
  start : C 0 = Example.initial (exampleSetup k) St.initial
  /-- a thread that makes no step any more is unable to make one again and again -/
  sched : ∀ u < 3, ∀ n, ∃ m, n ≤ m ∧ (t m = u ∨ ¬ CanStep cfg sc k (C m) u)
  /-- a thread in a call executes the call -/
  inside : ∀ n c, ch n ≠ .inner (.env c)
  /-- no exception leaves a thread function -/
  calm : ∀ n u, (C n).pc u ≠ .at .terminated

/-- Once `done` is set, loads of `done` return `false` only for some time. -/
def DoneSeen : Prop := ∀ n, (C n).s.2.done = true → ∃ m, ∀ j, m ≤ j → ch j ≠ .stale

/-- If the producer makes calls for ever, it comes to know every store to `read_index_`. -/
def ProducerSees : Prop := (∀ n, ∃ m r, n ≤ m ∧ e m = some (.res 0 r)) → ∀ n, ∃ m, (C n).s.1.rlast ≤ (C m).s.1.vp.r

/-- If the consumer makes calls for ever, it comes to know every store to `write_index_`. -/
def ConsumerSees : Prop := (∀ n, ∃ m r, n ≤ m ∧ e m = some (.res 1 r)) → ∀ n, ∃ m, (C n).s.1.wlast ≤ (C m).s.1.vc.w

/-- The same on a memory in which stores become visible. -/
structure FairRun : Prop extends ScheduledRun cfg sc k C t ch e where
  flag : DoneSeen C ch
  producerSees : ProducerSees C e
  consumerSees : ConsumerSees C e

end

/-! ### The queue -/

/-- How the state of the queue changes. -/
structure Grows (s₁ s₂ : St Nat) : Prop where
  rlast : s₁.rlast ≤ s₂.rlast
  wlast : s₁.wlast ≤ s₂.wlast
  vpr : s₁.vp.r ≤ s₂.vp.r
  vcw : s₁.vc.w ≤ s₂.vc.w
  R : ∀ j, j ≤ s₁.rlast → s₂.R j = s₁.R j
  W : ∀ j, j ≤ s₁.wlast → s₂.W j = s₁.W j
  acc : s₁.acc <+: s₂.acc
  rel : s₁.rel ≤ s₂.rel

/-- The state of the queue. -/
structure Facts (s : St Nat) : Prop where
  hl : s.rel ≤ s.acc.length
  vpr : s.vp.r ≤ s.rlast
  vcw : s.vc.w ≤ s.wlast
  wcnt : (s.W s.wlast).cnt = s.acc.length
  rmono : ∀ i j, i ≤ j → j ≤ s.rlast → (s.R i).cnt ≤ (s.R j).cnt
  wmono : ∀ i j, i ≤ j → j ≤ s.wlast → (s.W i).cnt ≤ (s.W j).cnt

theorem text_facts (hN : Holds cfg N) {C : TConf Nat} (hx : TextExec cfg sc h C) : Facts C.s := by
  obtain ⟨_, D, -, -, h1, h2⟩ := spsc_text_refines hN hx
  obtain ⟨_, _, _, h3, -⟩ := hN.inv h1
  rw [← h2.s]
  exact ⟨by have := h3.hl; omega, h3.vpr, h3.vcw, h3.wcnt, h3.rmono, h3.wmono⟩

theorem text_grows (hN : Holds cfg N) {C₁ C₂ : TConf Nat} (hx : TextExec cfg sc h C₁)
    (hs : MSteps (program Nat cfg sc).mach (Program.ok okCall) C₁ h' C₂) : Grows C₁.s C₂.s := by
  obtain ⟨D₁, D₂, h1, h2, h3, h4⟩ := spsc_text_refines_part hN hx hs
  obtain ⟨a, b, c, d, f, g, i, -⟩ := (hN.inv h1).evs h3
  obtain ⟨_, _, _, h5, -⟩ := (hN.inv h1).reach h3
  rw [← h2.s, ← h4.s]
  refine ⟨b, f, c, g, a, d, i, ?_⟩
  have := h5.rel_le b
  rw [a _ (Nat.le_refl _)] at this
  exact this

theorem example_plays_count {w : Nat → TChoice (Spsc.Choice Nat) (Op Nat) → Nat} :
    Plays ((program Nat cfg sc).mach.count w) (exampleSetup k) (fun s => Program.ok okCall s.1) where
  push t s v s' p' e h := (example_plays (k := k)).push _ _ _ _ _ _ (Mach.count_step h).1
  pop t s s' p' e h := (example_plays (k := k)).pop _ _ _ _ _ (Mach.count_step h).1
  step t s p ch s' p' e hp h := (example_plays (k := k)).step _ _ _ _ _ _ _ hp (Mach.count_step h).1
  sync ch hch t s s' p' e h := (example_plays (k := k)).sync _ hch _ _ _ _ _ (Mach.count_step h).1
  allowed ch hch s := (example_plays (cfg := cfg) (sc := sc) (k := k)).allowed _ hch _

/-! ### What the program remembers -/

theorem example_ended {C : EConf} (hx : ExampleRuns cfg sc k h C) :
    (∀ u, C.pc u = .at .ended → C.s.2.ended u = true) ∧ (∀ u, C.pc u = .at .joinConsumers ∨ C.pc u = .at .print → C.s.2.done = true) := by
  induction hx with
  | refl =>
    constructor <;> intro u h <;> simp only [Example.initial, Example.PC.at.injEq] at h <;> split at h <;>
      first
      | (simp at h; done)
      | (split at h <;> first
          | (simp at h; done)
          | (split at h <;> simp at h))
  | @step h C t ch σ' p' e hx hs hok ih =>
    have hs' := trans_of_step hs
    obtain ⟨s₂, g₂⟩ := σ'
    simp only at hs'
    generalize hp : C.pc t = p at hs'
    have hne : ∀ a (b : Option Bool), after a b ≠ .ended ∧ after a b ≠ .joinConsumers ∧ after a b ≠ .print := by
      intro a b
      cases a <;> cases b <;> simp [after] <;> (repeat' split) <;> simp
    constructor
    · intro u hu
      by_cases hut : u = t
      · subst hut
        simp only [upd_self] at hu
        subst hu
        generalize hq : (Example.PC.at At.ended : Example.PC (TPC (St Nat) (Loc Nat) (Spsc.Choice Nat) (Ret Nat))) = q at hs'
        cases hs' <;> first
          | (cases hq; done)
          | simp
          | skip
        simp only [Example.PC.at.injEq] at hq
        exact absurd hq.symm (hne _ _).1
      · simp only [upd_ne _ _ _ hut] at hu
        have := ih.1 u hu
        cases hs' <;> simp [this, hut]
    · intro u hu
      by_cases hut : u = t
      · subst hut
        simp only [upd_self] at hu
        cases hs' with
        | finish => simp [hne] at hu
        | publish => rfl
        | joined => exact ih.2 u (.inl hp)
        | _ => simp at hu
      · simp only [upd_ne _ _ _ hut] at hu
        have := ih.2 u hu
        cases hs' <;> simp [this]

/-! ### Able threads -/

/-- The producer or the consumer can make a step unless it has ended. -/
theorem example_able (hN : Holds cfg N) {C : EConf} (hx : ExampleRuns cfg sc k h C) {u : Nat} (hu : u < 2) (h1 : C.pc u ≠ .at .ended)
    (h2 : C.pc u ≠ .at .terminated) : CanStep cfg sc k C u := by
  have hi := example_inv hx
  have hr := hi.role u
  have hb := hi.busy u
  have hex := example_exec hx
  cases hp : C.pc u with
  | call a p =>
    have h3 := (hb a p hp).1
    obtain ⟨c, ⟨s', p', e⟩, -, h4, h5⟩ := spsc_text_never_blocks hN hex (t := u) (by simp only [Mach.baseOf, hp, Mach.pcOf]; exact h3)
    simp only [Mach.baseOf, hp, Mach.pcOf] at h4 h5
    unfold CanStep Able
    rw [hp]
    cases e with
    | none => exact ⟨.inner c, _, h4, by simp only [Example.mach, h5]; rfl⟩
    | some ev => cases ev <;> exact ⟨.inner c, _, h4, by simp only [Example.mach, h5]; rfl⟩
  | «at» a =>
    rw [hp] at hr h1 h2
    unfold CanStep Able
    rw [hp]
    cases a with
    | forTest i =>
      refine ⟨.go, ?_⟩
      by_cases h : i = k
      · exact ⟨_, trivial, by simp only [Example.mach, exampleSetup, quiet, h, if_true]; rfl⟩
      · exact ⟨_, trivial, by simp only [Example.mach, exampleSetup, h, if_false]; rfl⟩
    | count i => exact ⟨.go, _, trivial, rfl⟩
    | push i v =>
      have : u = 0 := by simpa [Role, exampleSetup] using hr
      subst this
      exact ⟨.go, _, ⟨trivial, nofun⟩, rfl⟩
    | test =>
      have : u = 1 := by simp [Role, exampleSetup, Setup.main] at hr; omega
      subst this
      refine ⟨.go, ?_⟩
      cases h : C.s.2.done
      · exact ⟨_, trivial, by simp only [Example.mach, h]; rfl⟩
      · exact ⟨_, trivial, by simp only [Example.mach, h]; rfl⟩
    | pop l =>
      have : u = 1 := by simp [Role, exampleSetup, Setup.main] at hr; omega
      subst this
      exact ⟨.go, _, ⟨trivial, nofun⟩, rfl⟩
    | counted l => exact ⟨.go, _, trivial, rfl⟩
    | leave => exact ⟨.go, _, trivial, rfl⟩
    | ended => exact absurd rfl h1
    | terminated => exact absurd rfl h2
    | joinProducers | setDone | joinConsumers | print | absent => simp [Role, exampleSetup, Setup.main] at hr; omega

/-- `main` can make a step, unless it waits for a thread. -/
theorem example_main_able {C : EConf} (hx : ExampleRuns cfg sc k h C) (h0 : C.pc 0 = .at .ended)
    (h1 : C.pc 2 = .at .joinConsumers → C.pc 1 = .at .ended) (h2 : C.pc 2 ≠ .at .print) : CanStep cfg sc k C 2 := by
  have hi := example_inv hx
  have hr := hi.role 2
  have hb := hi.busy 2
  obtain ⟨he, -⟩ := example_ended hx
  cases hp : C.pc 2 with
  | call a p => rw [hp] at hr; cases a <;> simp [Role, exampleSetup, Setup.main] at hr
  | «at» a =>
    rw [hp] at hr h2
    unfold CanStep Able
    rw [hp]
    cases a with
    | joinProducers => exact ⟨.go, _, trivial, by
      simp only [Example.mach]
      rw [if_pos (by simp [exampleSetup, he 0 h0])]
      rfl⟩
    | setDone => exact ⟨.go, _, trivial, rfl⟩
    | joinConsumers => exact ⟨.go, _, trivial, by
      simp only [Example.mach]
      rw [if_pos (by simp [exampleSetup, he 1 (h1 hp)])]⟩
    | print => exact absurd rfl h2
    | _ => simp [Role, exampleSetup, Setup.main] at hr

/-- **C69 (never stuck).** Until `main` has joined all threads, or an exception ends the program, some thread can make a step. -/
theorem spsc_example_never_stuck (hN : Holds cfg N) {C : EConf} (hx : ExampleRuns cfg sc k h C) (ht : ∀ u, C.pc u ≠ .at .terminated)
    (hp : C.pc 2 ≠ .at .print) : ∃ u < 3, CanStep cfg sc k C u := by
  by_cases h0 : C.pc 0 = .at .ended
  · by_cases h1 : C.pc 1 = .at .ended
    · exact ⟨2, by decide, example_main_able hx h0 (fun _ => h1) hp⟩
    · exact ⟨1, by decide, example_able hN hx (by decide) h1 (ht 1)⟩
  · exact ⟨0, by decide, example_able hN hx (by decide) h0 (ht 0)⟩

/-! ### Executions without end -/

section
variable {C : Nat → EConf} {t : Nat → Nat} {ch : Nat → Example.Choice (TChoice (Spsc.Choice Nat) (Op Nat))} {e : Nat → Option (Event (Op Nat) (Ret Nat))}
  {n u : Nat}

theorem FairRun.runs (hf : FairRun cfg sc k C t ch e) (n : Nat) : ExampleRuns cfg sc k (firstEvents e n) (C n) :=
  forever_runs hf.exec hf.start n

theorem FairRun.text (hf : FairRun cfg sc k C t ch e) (n : Nat) : TextExec cfg sc (firstEvents e n) (Mach.baseOf (program Nat cfg sc).mach (C n)) :=
  example_exec (hf.runs n)

theorem FairRun.facts (hf : FairRun cfg sc k C t ch e) (hN : Holds cfg N) (n : Nat) : Facts (C n).s.1 := text_facts hN (hf.text n)

theorem FairRun.grows (hf : FairRun cfg sc k C t ch e) (hN : Holds cfg N) {n n' : Nat} (h : n ≤ n') : Grows (C n).s.1 (C n').s.1 := by
  obtain ⟨j, rfl⟩ : ∃ j, n' = n + j := ⟨n' - n, by omega⟩
  exact text_grows hN (hf.text n) (forever_base example_plays hf.exec hf.start n j)

/-- The producer or the consumer makes a step, unless it has ended. -/
theorem FairRun.acts (hf : FairRun cfg sc k C t ch e) (hN : Holds cfg N) (hu : u < 2) {n : Nat} (h1 : (C n).pc u ≠ .at .ended) :
    ∃ j, t (n + j) = u ∧ (C (n + j)).pc u = (C n).pc u ∧ ∀ i, n ≤ i → i < n + j → t i ≠ u :=
  forever_acts hf.exec (hf.sched u (by omega)) fun j h => example_able hN (hf.runs _) hu (by rw [h]; exact h1) (hf.calm _ _)

/-- Events of a thread while it makes no step. -/
theorem FairRun.nothing (hf : FairRun cfg sc k C t ch e) {n : Nat} : ∀ {j : Nat}, (∀ i, n ≤ i → i < n + j → t i ≠ u) → ofThread u (between e n j) = []
  | 0, _ => rfl
  | j + 1, h => by
    rw [between, ofThread_append, hf.nothing (fun i h1 h2 => h i h1 (by omega)), forever_no_event example_plays hf.exec hf.start (h (n + j) (by omega) (by omega))]
    rfl

/-- The operation a thread calls. -/
def CallAt (u : Nat) (a : Example.At) (o : Op Nat) : Prop := (u = 0 ∧ ∃ i v, a = .push i v ∧ o = .push v) ∨ (u = 1 ∧ ∃ l, a = .pop l ∧ o = .pop)

/-- A call begins. -/
theorem FairRun.begins (hf : FairRun cfg sc k C t ch e) {a o} (hc : CallAt (t n) a o) (h1 : (C n).pc (t n) = .at a) :
    e n = some (.inv (t n) o) ∧ ∃ p, (C (n + 1)).pc (t n) = .call a p := by
  have h2 := forever_trans hf.exec n
  rw [h1] at h2
  generalize (C (n + 1)).s.1 = s' at h2
  generalize (C (n + 1)).s.2 = g' at h2
  generalize ch n = c at h2
  generalize (C (n + 1)).pc (t n) = p' at h2 ⊢
  generalize e n = ev at h2 ⊢
  rcases hc with ⟨hu, i, v, rfl, rfl⟩ | ⟨hu, l, rfl, rfl⟩
  · cases h2 with
    | push h3 =>
      simp only [exampleSetup, Program.mach, Option.map_eq_some_iff] at h3
      obtain ⟨y, _, h3⟩ := h3
      cases h3
      exact ⟨rfl, _, rfl⟩
  · cases h2 with
    | pop h3 =>
      simp only [exampleSetup, Program.mach, Option.map_eq_some_iff] at h3
      obtain ⟨y, _, h3⟩ := h3
      cases h3
      exact ⟨rfl, _, rfl⟩

/-- A call returns. -/
theorem FairRun.returns (hf : FairRun cfg sc k C t ch e) (hN : Holds cfg N) {a o} (hc : CallAt u a o) {n : Nat} (h1 : (C n).pc u = .at a) :
    ∃ j r, e (n + j) = some (.res u r) ∧ ofThread u (between e n (j + 1)) = [.inv u o, .res u r] ∧
      (C (n + j + 1)).pc u = .at (after a ((exampleSetup k).result a r)) := by
  have hu : u < 2 := by rcases hc with ⟨rfl, _⟩ | ⟨rfl, _⟩ <;> decide
  have hne : (C n).pc u ≠ .at .ended := by
    rw [h1]; rcases hc with ⟨_, _, _, rfl, _⟩ | ⟨_, _, rfl, _⟩ <;> simp
  obtain ⟨b, h2, h3, h4⟩ := hf.acts hN hu hne
  obtain ⟨h5, p, h6⟩ := hf.begins (n := n + b) (by rw [h2]; exact hc) (by rw [h2, h3, h1])
  rw [h2] at h5 h6
  have h7 : ofThread u (between e n (b + 1)) = [.inv u o] := by
    rw [between, ofThread_append, hf.nothing h4, h5]; exact ofThread_eq rfl
  -- it returns, or it goes on for ever
  have h8 : ∀ j, (∃ j' r, j' < j ∧ e (n + b + 1 + j') = some (.res u r) ∧ ofThread u (between e n (b + 1 + j' + 1)) = [.inv u o, .res u r] ∧
      (C (n + b + 1 + j' + 1)).pc u = .at (after a ((exampleSetup k).result a r))) ∨
      (ofThread u (between e n (b + 1 + j)) = [.inv u o] ∧ ∃ p, (C (n + b + 1 + j)).pc u = .call a p) := by
    intro j
    induction j with
    | zero => exact .inr ⟨h7, p, h6⟩
    | succ j ih =>
      rcases ih with ⟨j', r, h8, h9⟩ | ⟨h8, q, h9⟩
      · exact .inl ⟨j', r, by omega, h9⟩
      · rcases forever_call example_plays hf.exec hf.start h9 with ⟨h10, q', h11⟩ | ⟨_, r, h10, h11⟩
        · refine .inr ⟨?_, q', h11⟩
          rw [← Nat.add_assoc, between, ofThread_append, h8, show n + (b + 1 + j) = n + b + 1 + j by omega, h10]; rfl
        · refine .inl ⟨j, r, by omega, h10, ?_, h11⟩
          rw [between, ofThread_append, h8, show n + (b + 1 + j) = n + b + 1 + j by omega, h10]
          simp [ofThread, Event.tid]
  apply Classical.byContradiction
  intro hno
  have h9 : ∀ j, ofThread u (between e n (b + 1 + j)) = [.inv u o] ∧ ∃ p, (C (n + b + 1 + j)).pc u = .call a p := by
    intro j
    rcases h8 j with ⟨j', r, _, h10, h11, h12⟩ | h10
    · refine absurd ⟨b + 1 + j', r, ?_, h11, ?_⟩ hno
      · rw [← h10]; congr 1; omega
      · rw [← h12]; congr 2; omega
    · exact h10
  have h10 : ∀ j, callSteps C t u n j ≤ 62 * maxSteps N o := by
    intro j
    have hw : ∀ i c, t i = u → ch i = .inner c → 1 ≤ stepsOfThread u u c := by
      intro i c _ hi
      cases c with
      | env c => exact absurd hi (hf.inside i c)
      | _ => simp [stepsOfThread]
    obtain ⟨c, h11, h12⟩ := forever_count (w := stepsOfThread u) example_plays example_plays_count hf.exec hf.start hw n (b + 1 + j)
    have h13 := spsc_text_wait_free hN (hf.text n) (t := u) (by omega) (by simp only [Mach.baseOf, h1]; rfl) h12 (o := o) (r := .threw)
      (by rw [(h9 j).1]; exact ⟨[_], rfl⟩)
    have h14 : ∀ i, callSteps C t u n j ≤ callSteps C t u n (j + i) := by
      intro i
      induction i with
      | zero => exact Nat.le_refl _
      | succ i ih => rw [← Nat.add_assoc]; simp only [callSteps]; omega
    have := h14 (b + 1)
    rw [Nat.add_comm j] at this
    simp only at h13
    omega
  have h11 : ∀ d, ∃ j, d ≤ callSteps C t u n (b + 1 + j) := by
    intro d
    induction d with
    | zero => exact ⟨0, Nat.zero_le _⟩
    | succ d ih =>
      obtain ⟨j, h11⟩ := ih
      obtain ⟨p, h12⟩ := (h9 j).2
      obtain ⟨i, h13, h14, -⟩ := hf.acts hN hu (n := n + b + 1 + j) (by rw [h12]; simp)
      have h15 : ∀ i, d ≤ callSteps C t u n (b + 1 + j + i) := by
        intro i
        induction i with
        | zero => exact h11
        | succ i ih => rw [← Nat.add_assoc]; simp only [callSteps]; omega
      refine ⟨j + i + 1, ?_⟩
      rw [show b + 1 + (j + i + 1) = (b + 1 + j + i) + 1 by omega]
      simp only [callSteps]
      have := h15 i
      rw [show n + (b + 1 + j + i) = n + b + 1 + j + i by omega, h14, h12]
      simp only [h13, if_true]
      omega
  obtain ⟨j, h12⟩ := h11 (62 * maxSteps N o + 1)
  have := h10 (b + 1 + j)
  omega

/-- A call of `push` (spsc_queue.cpp:25). -/
theorem FairRun.push (hf : FairRun cfg sc k C t ch e) (hN : Holds cfg N) {i v n : Nat} (h1 : (C n).pc 0 = .at (.push i v)) :
    ∃ n' b, n < n' ∧ e (n' - 1) = some (.res 0 (.pushed b)) ∧ (C n').pc 0 = .at (if b then .forTest (i + 1) else .push i v) ∧
      ∃ c, SeenReleased (C n).s.1 (C n').s.1 c ∧ (b = true ↔ (C n).s.1.acc.length < c + N) ∧
        (b = false → (C n').s.1.acc = (C n).s.1.acc) := by
  obtain ⟨j, r, h2, h3, h4⟩ := hf.returns hN (.inl ⟨rfl, i, v, rfl, rfl⟩) h1
  have h5 := spsc_text_producer_call hN (hf.text n) (by simp only [Mach.baseOf, h1]; rfl) (forever_base example_plays hf.exec hf.start n (j + 1)) h3
  have h6 := hf.calm (n + j + 1) 0
  rw [h4] at h6
  cases r with
  | pushed b =>
    obtain ⟨c, h7, h8, h9⟩ := h5
    refine ⟨n + (j + 1), b, by omega, h2, ?_, c, h7, h8, ?_⟩
    · rw [← Nat.add_assoc, h4]
      cases b <;> rfl
    · rintro rfl; exact h9
  | _ => exact absurd rfl h6

/-- A call of `pop` (spsc_queue.cpp:36, :40). -/
theorem FairRun.pop (hf : FairRun cfg sc k C t ch e) (hN : Holds cfg N) {l : Bool} {n : Nat} (h1 : (C n).pc 1 = .at (.pop l)) :
    ∃ n' x, n < n' ∧ e (n' - 1) = some (.res 1 (.popped x)) ∧
      ((x = none ∧ (C n').pc 1 = .at (if l then .leave else .test) ∧ SeenAccepted (C n).s.1 (C n').s.1 (C n).s.1.rel) ∨
        (C n').pc 1 = .at (.counted l) ∧ (C n').s.1.rel = (C n).s.1.rel + 1) := by
  obtain ⟨j, r, h2, h3, h4⟩ := hf.returns hN (.inr ⟨rfl, l, rfl, rfl⟩) h1
  have h5 := spsc_text_consumer_call hN (hf.text n) (by simp only [Mach.baseOf, h1]; rfl) (forever_base example_plays hf.exec hf.start n (j + 1)) h3
  have h6 := hf.calm (n + j + 1) 1
  rw [h4] at h6
  cases r with
  | popped x =>
    refine ⟨n + (j + 1), x, by omega, h2, ?_⟩
    cases x with
    | none => exact .inl ⟨rfl, by rw [← Nat.add_assoc, h4]; cases l <;> rfl, h5.1⟩
    | some v => exact .inr ⟨by rw [← Nat.add_assoc, h4]; rfl, h5.2.2.1⟩
  | _ => exact absurd rfl h6

/-! ### The other steps -/

/-- `i != iterations`, no. -/
theorem FairRun.exit (hf : FairRun cfg sc k C t ch e) (hN : Holds cfg N) {n : Nat} (h1 : (C n).pc 0 = .at (.forTest k)) : ∃ n', (C n').pc 0 = .at .ended := by
  obtain ⟨j, h2, h3, -⟩ := hf.acts hN (u := 0) (by decide) (n := n) (by rw [h1]; simp)
  refine ⟨n + j + 1, ?_⟩
  have h4 := forever_trans hf.exec (n + j)
  rw [h2, h3, h1] at h4
  generalize (C (n + j + 1)).s.1 = s' at h4
  generalize (C (n + j + 1)).s.2 = g' at h4
  generalize ch (n + j) = c at h4
  generalize (C (n + j + 1)).pc 0 = p' at h4 ⊢
  generalize e (n + j) = ev at h4 ⊢
  cases h4 with
  | exit => rfl
  | more h => exact absurd rfl h

/-- `i != iterations`, yes; `++producer_count`. -/
theorem FairRun.more (hf : FairRun cfg sc k C t ch e) (hN : Holds cfg N) {i n : Nat} (hi : i ≠ k) (h1 : (C n).pc 0 = .at (.forTest i)) :
    ∃ n' v, n < n' ∧ (C n').pc 0 = .at (.push i v) := by
  obtain ⟨j, h2, h3, -⟩ := hf.acts hN (u := 0) (by decide) (n := n) (by rw [h1]; simp)
  have h5 : (C (n + j + 1)).pc 0 = .at (.count i) := by
    have h4 := forever_trans hf.exec (n + j)
    rw [h2, h3, h1] at h4
    generalize (C (n + j + 1)).s.1 = s' at h4
    generalize (C (n + j + 1)).s.2 = g' at h4
    generalize ch (n + j) = c at h4
    generalize (C (n + j + 1)).pc 0 = p' at h4 ⊢
    generalize e (n + j) = ev at h4 ⊢
    cases h4 with
    | exit h => exact absurd h hi
    | more h => rfl
  obtain ⟨j', h6, h7, -⟩ := hf.acts hN (u := 0) (by decide) (n := n + j + 1) (by rw [h5]; simp)
  have h4 := forever_trans hf.exec (n + j + 1 + j')
  rw [h6, h7, h5] at h4
  have h8 : ∃ v, (C (n + j + 1 + j' + 1)).pc 0 = .at (.push i v) := by
    generalize (C (n + j + 1 + j' + 1)).s.1 = s' at h4
    generalize (C (n + j + 1 + j' + 1)).s.2 = g' at h4
    generalize ch (n + j + 1 + j') = c at h4
    generalize (C (n + j + 1 + j' + 1)).pc 0 = p' at h4 ⊢
    generalize e (n + j + 1 + j') = ev at h4 ⊢
    cases h4
    exact ⟨_, rfl⟩
  obtain ⟨v, h8⟩ := h8
  exact ⟨_, v, by omega, h8⟩

/-- `while ( !done )`. -/
theorem FairRun.test (hf : FairRun cfg sc k C t ch e) (hN : Holds cfg N) {n : Nat} (h1 : (C n).pc 1 = .at .test) :
    ∃ n' l, n < n' ∧ (C n').pc 1 = .at (.pop l) ∧ ((∀ j, n ≤ j → (C j).s.2.done = true ∧ ch j ≠ .stale) → l = true) := by
  obtain ⟨j, h2, h3, -⟩ := hf.acts hN (u := 1) (by decide) (n := n) (by rw [h1]; simp)
  obtain ⟨p', h4, h5⟩ := hf.exec.step (n + j)
  rw [h2, h3, h1] at h4
  have h6 : (C (n + j + 1)).pc 1 = p' := by rw [h5, h2, upd_self]
  simp only [Example.mach] at h4
  split at h4 <;> first
    | (rename_i hx _; cases hx; done)
    | skip
  · split at h4
    · simp only [Option.map_eq_some_iff, Prod.mk.injEq] at h4
      obtain ⟨_, _, _, rfl, _⟩ := h4
      exact ⟨_, true, by omega, h6, fun _ => rfl⟩
    · rename_i h7
      simp only [Option.some.injEq, Prod.mk.injEq] at h4
      obtain ⟨_, rfl, _⟩ := h4
      exact ⟨_, false, by omega, h6, fun h => absurd (h (n + j) (by omega)).1 h7⟩
  · rename_i h7
    simp only [Option.some.injEq, Prod.mk.injEq] at h4
    obtain ⟨_, rfl, _⟩ := h4
    exact ⟨_, false, by omega, h6, fun h => absurd h7 (h (n + j) (by omega)).2⟩
  · cases h4

/-- `++consumer_count`. -/
theorem FairRun.counted (hf : FairRun cfg sc k C t ch e) (hN : Holds cfg N) {n : Nat} {l : Bool} (h1 : (C n).pc 1 = .at (.counted l)) :
    ∃ n', n < n' ∧ (C n').pc 1 = .at (.pop l) := by
  obtain ⟨j, h2, h3, -⟩ := hf.acts hN (u := 1) (by decide) (n := n) (by rw [h1]; simp)
  refine ⟨n + j + 1, by omega, ?_⟩
  have h4 := forever_trans hf.exec (n + j)
  rw [h2, h3, h1] at h4
  generalize (C (n + j + 1)).s.1 = s' at h4
  generalize (C (n + j + 1)).s.2 = g' at h4
  generalize ch (n + j) = c at h4
  generalize (C (n + j + 1)).pc 1 = p' at h4 ⊢
  generalize e (n + j) = ev at h4 ⊢
  cases h4
  rfl

/-- The end of `consumer`. -/
theorem FairRun.leave (hf : FairRun cfg sc k C t ch e) (hN : Holds cfg N) {n : Nat} (h1 : (C n).pc 1 = .at .leave) : ∃ n', (C n').pc 1 = .at .ended := by
  obtain ⟨j, h2, h3, -⟩ := hf.acts hN (u := 1) (by decide) (n := n) (by rw [h1]; simp)
  refine ⟨n + j + 1, ?_⟩
  have h4 := forever_trans hf.exec (n + j)
  rw [h2, h3, h1] at h4
  generalize (C (n + j + 1)).s.1 = s' at h4
  generalize (C (n + j + 1)).s.2 = g' at h4
  generalize ch (n + j) = c at h4
  generalize (C (n + j + 1)).pc 1 = p' at h4 ⊢
  generalize e (n + j) = ev at h4 ⊢
  cases h4
  rfl

/-- A thread that has ended makes no step. -/
theorem FairRun.over (hf : FairRun cfg sc k C t ch e) {n : Nat} (h1 : (C n).pc u = .at .ended) : ∀ j, (C (n + j)).pc u = .at .ended ∧ t (n + j) ≠ u := by
  have h2 : ∀ n, (C n).pc u = .at .ended → t n ≠ u := by
    rintro n h1 rfl
    have h4 := forever_trans hf.exec n
    rw [h1] at h4
    generalize (C (n + 1)).s.1 = s' at h4
    generalize (C (n + 1)).s.2 = g' at h4
    generalize ch n = c at h4
    generalize (C (n + 1)).pc (t n) = p' at h4
    generalize e n = ev at h4
    cases h4
  intro j
  induction j with
  | zero => exact ⟨h1, h2 _ h1⟩
  | succ j ih =>
    have := forever_other hf.exec ih.2
    rw [ih.1] at this
    exact ⟨this, h2 _ this⟩

/-- `done` stays set. -/
theorem FairRun.stays_done (hf : FairRun cfg sc k C t ch e) {n : Nat} (h1 : (C n).s.2.done = true) : ∀ j, (C (n + j)).s.2.done = true := by
  intro j
  induction j with
  | zero => exact h1
  | succ j ih =>
    have h4 := forever_trans hf.exec (n + j)
    rw [Nat.add_assoc] at h4
    generalize (C (n + (j + 1))).s.1 = s' at h4
    generalize (C (n + (j + 1))).s.2 = g' at h4 ⊢
    generalize ch (n + j) = c at h4
    generalize (C (n + (j + 1))).pc (t (n + j)) = p' at h4
    generalize (C (n + j)).pc (t (n + j)) = p at h4
    generalize e (n + j) = ev at h4
    cases h4 <;> simp [ih]

/-! ### The consumer -/

/-- The consumer calls `pop` again and again until it ends. -/
theorem FairRun.pops (hf : FairRun cfg sc k C t ch e) (hN : Holds cfg N) (hne : ∀ n, (C n).pc 1 ≠ .at .ended) (c : Nat) :
    ∃ n l, c ≤ n ∧ (C n).pc 1 = .at (.pop l) := by
  induction c with
  | zero =>
    obtain ⟨n, l, -, h1, -⟩ := hf.test hN (n := 0) (by rw [hf.start]; rfl)
    exact ⟨n, l, Nat.zero_le _, h1⟩
  | succ c ih =>
    obtain ⟨n, l, h1, h2⟩ := ih
    obtain ⟨n', x, h3, -, ⟨-, h4, -⟩ | ⟨h4, -⟩⟩ := hf.pop hN h2
    · cases l with
      | false =>
        obtain ⟨n₂, l, h5, h6, -⟩ := hf.test hN h4
        exact ⟨n₂, l, by omega, h6⟩
      | true =>
        obtain ⟨n₂, h5⟩ := hf.leave hN h4
        exact absurd h5 (hne _)
    · obtain ⟨n₂, h5, h6⟩ := hf.counted hN h4
      exact ⟨n₂, l, by omega, h6⟩

/-! ### The producer -/

/-- **`push` succeeds at last.** -/
theorem FairRun.pushed (hf : FairRun cfg sc k C t ch e) (hN : Holds cfg N) (hpos : 0 < N) {i v n : Nat} (h1 : (C n).pc 0 = .at (.push i v)) :
    ∃ n', n < n' ∧ (C n').pc 0 = .at (.forTest (i + 1)) := by
  apply Classical.byContradiction
  intro hno
  have hno : ∀ n', n < n' → (C n').pc 0 ≠ .at (.forTest (i + 1)) := fun n' h1 h2 => hno ⟨n', h1, h2⟩
  -- all calls fail
  have h2 : ∀ n₁, n ≤ n₁ → (C n₁).pc 0 = .at (.push i v) → ∃ n₂, n₁ < n₂ ∧ (C n₂).pc 0 = .at (.push i v) ∧
      e (n₂ - 1) = some (.res 0 (.pushed false)) ∧ (C n₂).s.1.acc = (C n₁).s.1.acc ∧
      ∃ c, SeenReleased (C n₁).s.1 (C n₂).s.1 c ∧ ¬ (C n₁).s.1.acc.length < c + N := by
    intro n₁ h2 h3
    obtain ⟨n₂, b, h4, h5, h6, c, h7, h8, h9⟩ := hf.push hN h3
    cases b with
    | true => exact absurd h6 (hno n₂ (by omega))
    | false => exact ⟨n₂, h4, h6, h5, h9 rfl, c, h7, fun h => by simpa using h8.2 h⟩
  have h3 : ∀ c, ∃ n₁, n ≤ n₁ ∧ c ≤ n₁ ∧ (C n₁).pc 0 = .at (.push i v) ∧ (C n₁).s.1.acc = (C n).s.1.acc := by
    intro c
    induction c with
    | zero => exact ⟨n, Nat.le_refl _, Nat.zero_le _, h1, rfl⟩
    | succ c ih =>
      obtain ⟨n₁, h3, h4, h5, h6⟩ := ih
      obtain ⟨n₂, h7, h8, -, h9, -⟩ := h2 n₁ h3 h5
      exact ⟨n₂, by omega, by omega, h8, h9.trans h6⟩
  have h4 : ∀ n', ∃ m r, n' ≤ m ∧ e m = some (.res 0 r) := by
    intro n'
    obtain ⟨n₁, h4, h5, h6, -⟩ := h3 n'
    obtain ⟨n₂, h7, -, h8, -⟩ := h2 n₁ h4 h6
    exact ⟨n₂ - 1, _, by omega, h8⟩
  -- nothing is added
  have h5 : ∀ n', n ≤ n' → (C n').s.1.acc.length ≤ (C n).s.1.acc.length := by
    intro n' _
    obtain ⟨n₁, -, h6, -, h7⟩ := h3 n'
    have := (hf.grows hN h6).acc.length_le
    rwa [h7] at this
  -- the consumer goes on
  have h6 : ∀ m, (C m).pc 0 ≠ .at .ended := by
    intro m h7
    obtain ⟨n₁, -, h8, h9, -⟩ := h3 m
    obtain ⟨j, rfl⟩ : ∃ j, n₁ = m + j := ⟨n₁ - m, by omega⟩
    rw [(hf.over h7 j).1] at h9
    cases h9
  have h7 : ∀ m, (C m).pc 1 ≠ .at .ended := fun m h8 =>
    h6 m ((example_inv (hf.runs m)).producers_ended (past_done (example_inv (hf.runs m)) (by rw [h8]; simp [Past, PC.here])) (by simp [exampleSetup]))
  have h8 : ∀ n', ∃ m r, n' ≤ m ∧ e m = some (.res 1 r) := by
    intro n'
    obtain ⟨n₁, l, h8, h9⟩ := hf.pops hN h7 n'
    obtain ⟨n₂, x, h10, h11, -⟩ := hf.pop hN h9
    exact ⟨n₂ - 1, _, by omega, h11⟩
  -- it takes all elements
  obtain ⟨m₁, h9⟩ := hf.consumerSees h8 n
  have h10 : ∀ d, d ≤ (C n).s.1.acc.length → ∃ n', n ≤ n' ∧ m₁ ≤ n' ∧ d ≤ (C n').s.1.rel := by
    intro d
    induction d with
    | zero => exact fun _ => ⟨n + m₁, by omega, by omega, Nat.zero_le _⟩
    | succ d ih =>
      intro hd
      obtain ⟨n₁, h10, h11, h12⟩ := ih (by omega)
      obtain ⟨n₂, l, h13, h14⟩ := hf.pops hN h7 n₁
      have h15 := (hf.grows hN h13).rel
      obtain ⟨n₃, x, h16, -, ⟨-, -, j, h17, h18, h19⟩ | ⟨-, h17⟩⟩ := hf.pop hN h14
      · refine ⟨n₂, by omega, by omega, ?_⟩
        have h20 := hf.facts hN n₃
        have h21 := (hf.grows hN (show m₁ ≤ n₂ by omega)).vcw
        have h22 := h20.wmono _ _ (show (C n).s.1.wlast ≤ j by omega) (Nat.le_trans h18 h20.vcw)
        rw [(hf.grows hN (show n ≤ n₃ by omega)).W _ (Nat.le_refl _), (hf.facts hN n).wcnt, ← h19] at h22
        omega
      · exact ⟨n₃, by omega, by omega, by omega⟩
  obtain ⟨n₁, h11, -, h12⟩ := h10 _ (Nat.le_refl _)
  -- and the producer sees that
  obtain ⟨m₂, h13⟩ := hf.producerSees h4 n₁
  obtain ⟨n₂, h14, h15, h16, h17⟩ := h3 (n₁ + m₂)
  obtain ⟨n₃, h18, -, -, -, c, ⟨j, h19, h20, rfl⟩, h21⟩ := h2 n₂ h14 h16
  have h22 := (hf.grows hN (show m₂ ≤ n₂ by omega)).vpr
  have h23 := hf.facts hN n₃
  have h24 := h23.rmono _ _ (show (C n₁).s.1.rlast ≤ j by omega) (Nat.le_trans h20 h23.vpr)
  rw [(hf.grows hN (show n₁ ≤ n₃ by omega)).R _ (Nat.le_refl _)] at h24
  have h25 : (C n₁).s.1.rel = ((C n₁).s.1.R (C n₁).s.1.rlast).cnt := rfl
  rw [h17] at h21
  omega

/-- The producer ends. -/
theorem FairRun.producer_ends (hf : FairRun cfg sc k C t ch e) (hN : Holds cfg N) (hpos : 0 < N) : ∃ n, (C n).pc 0 = .at .ended := by
  have h1 : ∀ d i n, i + d = k → (C n).pc 0 = .at (.forTest i) → ∃ n, (C n).pc 0 = .at .ended := by
    intro d
    induction d with
    | zero => intro i n hi h; exact hf.exit hN (n := n) (by rw [h, ← hi]; rfl)
    | succ d ih =>
      intro i n hi h
      obtain ⟨n₁, v, -, h2⟩ := hf.more hN (by omega) h
      obtain ⟨n₂, -, h3⟩ := hf.pushed hN hpos h2
      exact ih (i + 1) n₂ (by omega) h3
  exact h1 k 0 0 (by omega) (by rw [hf.start]; rfl)

/-! ### `main` -/

/-- `main` makes a step when it waits for nothing. -/
theorem FairRun.main_acts (hf : FairRun cfg sc k C t ch e) {n : Nat} (h0 : (C n).pc 0 = .at .ended)
    (h1 : (C n).pc 2 = .at .joinConsumers → (C n).pc 1 = .at .ended) (h2 : (C n).pc 2 ≠ .at .print) :
    ∃ j, t (n + j) = 2 ∧ (C (n + j)).pc 2 = (C n).pc 2 := by
  obtain ⟨j, h3, h4, -⟩ := forever_acts hf.exec (hf.sched 2 (by decide)) (n := n) fun j h =>
    example_main_able (hf.runs _) (hf.over h0 j).1 (fun h5 => (hf.over (h1 (h.symm.trans h5)) j).1) (by rw [h]; exact h2)
  exact ⟨j, h3, h4⟩

theorem FairRun.main_set (hf : FairRun cfg sc k C t ch e) {n : Nat} (h0 : (C n).pc 0 = .at .ended) (h1 : (C n).pc 2 = .at .setDone) :
    ∃ n', n ≤ n' ∧ (C n').s.2.done = true := by
  obtain ⟨j, h2, h3⟩ := hf.main_acts h0 (by rw [h1]; simp) (by rw [h1]; simp)
  refine ⟨n + j + 1, by omega, ?_⟩
  have h4 := forever_trans hf.exec (n + j)
  rw [h2, h3, h1] at h4
  generalize (C (n + j + 1)).s.1 = s' at h4
  generalize (C (n + j + 1)).s.2 = g' at h4 ⊢
  generalize ch (n + j) = c at h4
  generalize (C (n + j + 1)).pc 2 = p' at h4
  generalize e (n + j) = ev at h4
  cases h4
  rfl

/-- `done` is set. -/
theorem FairRun.done (hf : FairRun cfg sc k C t ch e) {n : Nat} (h0 : (C n).pc 0 = .at .ended) : ∃ n', n ≤ n' ∧ (C n').s.2.done = true := by
  have hr := (example_inv (hf.runs n)).role 2
  have hd := (example_ended (hf.runs n)).2 2
  cases hp : (C n).pc 2 with
  | call a p => rw [hp] at hr; cases a <;> simp [Role, exampleSetup, Setup.main] at hr
  | «at» a =>
    rw [hp] at hr hd
    cases a with
    | joinProducers =>
      obtain ⟨j, h2, h3⟩ := hf.main_acts h0 (by rw [hp]; simp) (by rw [hp]; simp)
      have h4 := forever_trans hf.exec (n + j)
      rw [h2, h3, hp] at h4
      have h5 : (C (n + j + 1)).pc 2 = .at .setDone := by
        generalize (C (n + j + 1)).s.1 = s' at h4
        generalize (C (n + j + 1)).s.2 = g' at h4
        generalize ch (n + j) = c at h4
        generalize (C (n + j + 1)).pc 2 = p' at h4 ⊢
        generalize e (n + j) = ev at h4
        cases h4
        rfl
      obtain ⟨n', h6, h7⟩ := hf.main_set (n := n + j + 1) (hf.over h0 (j + 1)).1 h5
      exact ⟨n', by omega, h7⟩
    | setDone => exact hf.main_set h0 hp
    | joinConsumers => exact ⟨n, Nat.le_refl _, hd (.inl rfl)⟩
    | print => exact ⟨n, Nat.le_refl _, hd (.inr rfl)⟩
    | _ => simp [Role, exampleSetup, Setup.main] at hr

/-- The consumer ends. -/
theorem FairRun.consumer_ends (hf : FairRun cfg sc k C t ch e) (hN : Holds cfg N) {n : Nat} (h0 : (C n).pc 0 = .at .ended) :
    ∃ n', (C n').pc 1 = .at .ended := by
  apply Classical.byContradiction
  intro hno
  have hno : ∀ n', (C n').pc 1 ≠ .at .ended := fun n' h => hno ⟨n', h⟩
  obtain ⟨n₁, h1, h2⟩ := hf.done h0
  obtain ⟨m, h3⟩ := hf.flag n₁ h2
  have h4 : ∀ j, n + n₁ + m ≤ j → (C j).s.2.done = true ∧ ch j ≠ .stale := by
    intro j hj
    obtain ⟨i, rfl⟩ : ∃ i, j = n₁ + i := ⟨j - n₁, by omega⟩
    exact ⟨hf.stays_done h2 i, h3 _ (by omega)⟩
  have h5 : ∀ j, n ≤ j → (C j).s.1.acc = (C n).s.1.acc := by
    intro j hj
    obtain ⟨i, rfl⟩ : ∃ i, j = n + i := ⟨j - n, by omega⟩
    exact (text_idle_producer hN (hf.text n) (by simp only [Mach.baseOf, h0]; rfl) (forever_base example_plays hf.exec hf.start n i)
      (hf.nothing fun i' h6 h7 => by
        obtain ⟨q, rfl⟩ : ∃ q, i' = n + q := ⟨i' - n, by omega⟩
        exact (hf.over h0 q).2)).2.2.1
  -- the elements that are left
  have h6 : ∀ l, (l = false → ∀ n₂, n + n₁ + m ≤ n₂ → (C n₂).pc 1 ≠ .at (.pop true)) → ∀ d n₂, n + n₁ + m ≤ n₂ → (C n₂).pc 1 = .at (.pop l) →
      (C n).s.1.acc.length ≤ (C n₂).s.1.rel + d → False := by
    intro l hl d
    induction d with
    | zero =>
      intro n₂ h6 h7 h8
      obtain ⟨n₃, x, h9, -, ⟨-, h10, -⟩ | ⟨-, h10⟩⟩ := hf.pop hN h7
      · cases l with
        | true => obtain ⟨n₄, h11⟩ := hf.leave hN h10; exact hno _ h11
        | false =>
          obtain ⟨n₄, l', h11, h12, h13⟩ := hf.test hN h10
          obtain rfl := h13 fun j hj => h4 j (by omega)
          exact hl rfl n₄ (by omega) h12
      · have := (hf.facts hN n₃).hl
        rw [h5 n₃ (by omega)] at this
        omega
    | succ d ih =>
      intro n₂ h6 h7 h8
      obtain ⟨n₃, x, h9, -, ⟨-, h10, -⟩ | ⟨h10, h11⟩⟩ := hf.pop hN h7
      · cases l with
        | true => obtain ⟨n₄, h11⟩ := hf.leave hN h10; exact hno _ h11
        | false =>
          obtain ⟨n₄, l', h11, h12, h13⟩ := hf.test hN h10
          obtain rfl := h13 fun j hj => h4 j (by omega)
          exact hl rfl n₄ (by omega) h12
      · obtain ⟨n₄, h12, h13⟩ := hf.counted hN h10
        have := (hf.grows hN (show n₃ ≤ n₄ by omega)).rel
        exact ih n₄ (by omega) h13 (by omega)
  have h7 : ∀ n₂, n + n₁ + m ≤ n₂ → (C n₂).pc 1 ≠ .at (.pop true) := fun n₂ h7 h8 =>
    h6 true (fun h => by cases h) _ n₂ h7 h8 (Nat.le_add_left _ _)
  obtain ⟨n₂, l, h8, h9⟩ := hf.pops hN hno (n + n₁ + m)
  cases l with
  | true => exact h7 n₂ h8 h9
  | false => exact h6 false (fun _ => h7) _ n₂ h8 h9 (Nat.le_add_left _ _)

/-- **C69 (the program ends).** spsc_queue.cpp, on a queue that can hold at least one element, has no fair execution without end. -/
theorem spsc_example_ends (hN : Holds cfg N) (hpos : 0 < N) : ¬ FairRun cfg sc k C t ch e := by
  intro hf
  obtain ⟨n₀, h0⟩ := hf.producer_ends hN hpos
  obtain ⟨n₁, h1⟩ := hf.consumer_ends hN h0
  obtain ⟨n₂, h2, h3⟩ := hf.done h0
  -- everybody has ended
  have h4 : (C (n₂ + n₁)).pc 0 = .at .ended := by
    rw [show n₂ + n₁ = n₀ + (n₂ - n₀ + n₁) by omega]; exact (hf.over h0 _).1
  have h5 : (C (n₂ + n₁)).pc 1 = .at .ended := by
    rw [Nat.add_comm]; exact (hf.over h1 _).1
  have h6 : ∃ n, (C n).pc 0 = .at .ended ∧ (C n).pc 1 = .at .ended ∧ (C n).pc 2 = .at .print := by
    rcases (example_inv (hf.runs (n₂ + n₁))).done (hf.stays_done h3 n₁) with h6 | h6
    · have h6 : (C (n₂ + n₁)).pc 2 = .at .joinConsumers := h6
      obtain ⟨j, h7, h8⟩ := hf.main_acts h4 (fun _ => h5) (by rw [h6]; simp)
      refine ⟨n₂ + n₁ + (j + 1), (hf.over h4 _).1, (hf.over h5 _).1, ?_⟩
      have h9 := forever_trans hf.exec (n₂ + n₁ + j)
      rw [h7, h8, h6] at h9
      rw [← Nat.add_assoc (n₂ + n₁)]
      generalize (C (n₂ + n₁ + j + 1)).s.1 = s' at h9
      generalize (C (n₂ + n₁ + j + 1)).s.2 = g' at h9
      generalize ch (n₂ + n₁ + j) = c at h9
      generalize (C (n₂ + n₁ + j + 1)).pc 2 = p' at h9 ⊢
      generalize e (n₂ + n₁ + j) = ev at h9
      cases h9
      rfl
    · exact ⟨_, h4, h5, h6⟩
  obtain ⟨n, h7, h8, h9⟩ := h6
  have h10 := hf.exec.thread n
  have h11 : t n = 2 := by
    have := (hf.over h7 0).2
    have := (hf.over h8 0).2
    simp only [Nat.add_zero] at *
    omega
  have h12 := forever_trans hf.exec n
  rw [h11, h9] at h12
  generalize (C (n + 1)).s.1 = s' at h12
  generalize (C (n + 1)).s.2 = g' at h12
  generalize ch n = c at h12
  generalize (C (n + 1)).pc 2 = p' at h12
  generalize e n = ev at h12
  cases h12

end

end Verif.Spsc.Code
