import Verif.Spsc.ExampleEndsExamples
import Verif.Queue.ExampleEnds
import Verif.Queue.TextExamples

/-!
# examples/queue.cpp: executions without end (C77)

No further code of /repo is modelled here. Assumptions of `queue_example_ends` that are needed: there are executions without end that satisfy all others.
-/

namespace Verif.Queue.Code.EndsEx
open Lin Text Example WordEx TextEx
open Stack.WordEx (cRep)
open Spsc.Code.EndsEx (next conf conf_succ pos pos_lt pos_again at' at'_eq forever_loop isTerminated)

abbrev ECh := Example.Choice (TChoice (SChoice cRep.K (Op Nat) Nat) (Op Nat))
abbrev Sched := List (Nat × ECh)
abbrev EC := MConf (SSt cRep.K Nat × Vars) (Example.PC (TPC (SSt cRep.K Nat) (Loc cRep.K Nat) (SChoice cRep.K (Op Nat) Nat) (Ret Nat)))

instance : Inhabited ECh := ⟨.go⟩

abbrev theMach (np nc k : Nat) := Example.mach (program cRep Nat).mach (exampleSetup cRep np nc k)

def begin (np nc k : Nat) : EC := Example.initial (exampleSetup cRep np nc k) (SConf.initial cRep 1).s

/-- The schedule with the steps that need no access written out. -/
def withTaus (np nc k : Nat) : Nat → EC → Sched → Sched
  | 0, _, _ | _, _, [] => []
  | f + 1, C, (t, ch) :: l =>
    let C' := (next (theMach np nc k) C (t, ch)).1
    (t, ch) :: (if ((theMach np nc k).step t C'.s (C'.pc t) (.inner .tau)).isSome then withTaus np nc k f C' ((t, .inner .tau) :: l) else withTaus np nc k f C' l)

/-- The thread waits, or has ended. -/
def waits {P : Type} (np nc : Nat) (g : Vars) : Example.PC P → Bool
  | .at .ended => true
  | .at .joinProducers => !(List.range np).all fun p => g.ended p
  | .at .joinConsumers => !(List.range nc).all fun c => g.ended (np + c)
  | _ => false

theorem waits_spec {np nc k : Nat} {C : EC} {u : Nat} (h : waits np nc C.s.2 (C.pc u) = true) : ¬ (theMach np nc k).CanStep C u := by
  rintro ⟨ch, ⟨σ, p', e⟩, h2⟩
  have h3 := trans_of_step h2
  generalize C.pc u = p at h h3
  obtain ⟨s₂, g₂⟩ := σ
  simp only at h3
  cases h3 <;> simp [waits] at h
  · rename_i h4 _; obtain ⟨p, h5, h6⟩ := h; have := h4 p h5; simp [h6] at this
  · rename_i h4; obtain ⟨p, h5, h6⟩ := h; have := h4 p h5; simp [exampleSetup, h6] at this

/-- What is checked of one step. -/
def stepOk (np nc k : Nat) (C : EC) (b : Nat × ECh) : Bool :=
  decide (b.1 < np + nc + 1) && ((theMach np nc k).step b.1 C.s (C.pc b.1) b.2).isSome &&
    okByB (program cRep Nat) (exampleSetup cRep np nc k) okc C.s (C.pc b.1) b.2 && ((List.range (np + nc)).all fun u => !isTerminated (C.pc u)) &&
    decide (C.s.1.mem.nalloc < 1000)

/-- All steps of a schedule, and all configurations before them. -/
def check (np nc k : Nat) (q : Vars → ECh → Bool) : EC → Sched → Bool
  | _, [] => true
  | C, b :: l => stepOk np nc k C b && q C.s.2 b.2 && check np nc k q (next (theMach np nc k) C b).1 l

theorem check_spec {np nc k : Nat} {q : Vars → ECh → Bool} {l : Sched} : ∀ {C : EC}, check np nc k q C l = true → ∀ i < l.length,
    stepOk np nc k (conf (theMach np nc k) C l i) (at' l i) = true ∧ q (conf (theMach np nc k) C l i).s.2 (at' l i).2 = true := by
  induction l with
  | nil => intro C _ i hi; simp at hi
  | cons b l ih =>
    intro C h i hi
    simp only [check, Bool.and_eq_true] at h
    cases i with
    | zero => exact h.1
    | succ i => exact ih h.2 i (by simpa using hi)

/-- A schedule that repeats itself. -/
theorem loop_scheduled {np nc k : Nat} {l : Sched} {a c : Nat} (hc : 0 < c) (hl : l.length = a + c) {q : Vars → ECh → Bool}
    (h : check np nc k q (begin np nc k) l = true)
    (hr : conf (theMach np nc k) (begin np nc k) l (a + c) = conf (theMach np nc k) (begin np nc k) l a)
    (hs : ∀ u ≤ np + nc, ∃ i, a ≤ i ∧ i < a + c ∧ ((at' l i).1 = u ∨
      waits np nc (conf (theMach np nc k) (begin np nc k) l i).s.2 ((conf (theMach np nc k) (begin np nc k) l i).pc u) = true)) :
    ∃ C t ch e, ScheduledRun (program cRep Nat).mach (exampleSetup cRep np nc k) (Program.ok fun _ _ => True) (SConf.initial cRep 1).s C t ch e ∧
      (∀ i, (C i).s.1.mem.nalloc < cRep.limit) ∧ ∀ i, q (C i).s.2 (ch i) = true := by
  have h' : ∀ i < a + c, _ := fun i hi => by
    have := (check_spec h i (by omega)).1
    simp only [stepOk, Bool.and_eq_true, decide_eq_true_eq] at this
    exact this
  have hf : Forever (theMach np nc k) (okBy (program cRep Nat).mach (exampleSetup cRep np nc k) (Program.ok fun _ _ => True)) (np + nc + 1)
      (fun n => conf (theMach np nc k) (begin np nc k) l (pos a c n)) (fun n => (at' l (pos a c n)).1) (fun n => (at' l (pos a c n)).2)
      (fun n => (next (theMach np nc k) (conf (theMach np nc k) (begin np nc k) l (pos a c n)) (at' l (pos a c n))).2) :=
    forever_loop hc hl (fun i hi => ⟨(h' i hi).1.1.1.1, (h' i hi).1.1.1.2, okByB_spec okc_spec (h' i hi).1.1.2⟩) hr
  have h0 : (fun n => conf (theMach np nc k) (begin np nc k) l (pos a c n)) 0 = Example.initial (exampleSetup cRep np nc k) (SConf.initial cRep 1).s := by
    have : pos a c 0 = 0 := by unfold pos; split <;> simp; omega
    simp only [this]
    cases l <;> rfl
  refine ⟨_, _, _, _, ⟨hf, h0, ?_, ?_⟩, fun i => (h' _ (pos_lt hc)).2, fun i => (check_spec h _ (by rw [hl]; exact pos_lt hc)).2⟩
  · intro u hu n
    obtain ⟨i, h1, h2, h3⟩ := hs u hu
    have h4 : n ≤ c * n := Nat.le_mul_of_pos_left n hc
    refine ⟨i + c * n, by omega, ?_⟩
    simp only [pos_again h1 h2]
    exact h3.imp id waits_spec
  · intro n u hu
    have h1 := (Runs.inv (example_plays cRep np nc k) (example_reads cRep np nc k) (forever_runs hf h0 n)).role u
    rw [hu] at h1
    have h2 : u < np + nc := h1
    have h3 := (h' _ (pos_lt (n := n) hc)).1.2
    rw [List.all_eq_true] at h3
    have h4 := h3 u (by simpa using h2)
    rw [hu] at h4
    cases h4

theorem same_conf {C D : EC} (hs : C.s = D.s) (h0 : C.pc 0 = D.pc 0) (h1 : C.pc 1 = D.pc 1) (h2 : ∀ u, C.pc (u + 2) = D.pc (u + 2)) : C = D := by
  obtain ⟨s, pc⟩ := C
  obtain ⟨s', pc'⟩ := D
  simp only at hs h0 h1 h2
  subst hs
  congr 1
  funext u
  match u with
  | 0 => exact h0
  | 1 => exact h1
  | u + 2 => exact h2 u

/-! ### `done` never seen -/

/-- No spurious failure. -/
def calmCh : ECh → Bool
  | .inner (.act .spur) => false
  | _ => true

theorem calm_spec {p : TPC (SSt cRep.K Nat) (Loc cRep.K Nat) (SChoice cRep.K (Op Nat) Nat) (Ret Nat)} {c : TChoice (SChoice cRep.K (Op Nat) Nat) (Op Nat)}
    (h : calmCh (.inner c) = true) : casFails p c = false := by
  unfold casFails
  split
  · rename_i a _ ch
    cases ch <;> first | rfl | cases h
  · rfl

/-- One producer without iterations, one consumer. `main` sets `done`; the consumer loads `false` from `done` and finds the queue empty, again and again. -/
def schedD : Sched := withTaus 1 1 0 100 (begin 1 1 0) [(0, .go), (2, .go), (2, .go), (1, .stale), (1, .go), (1, .inner (.act .go)), (1, .inner (.act .go)), (1, .inner (.act .go)), (1, .inner (.act .go))]

set_option maxRecDepth 100000 in
/-- **C77 (the assumption on `done` is needed).** All others hold. -/
theorem queue_example_done_needed : ∃ C t ch e,
    ScheduledRun (program cRep Nat).mach (exampleSetup cRep 1 1 0) (Program.ok fun _ _ => True) (SConf.initial cRep 1).s C t ch e ∧
      (∀ i, (C i).s.1.mem.nalloc < cRep.limit) ∧ ∀ i c, ch i = .inner c → casFails (Mach.pcOf (program cRep Nat).mach ((C i).pc (t i))) c = false := by
  have hl : schedD.length = 3 + 27 := by decide +kernel
  have hq : check 1 1 0 (fun _ c => calmCh c) (begin 1 1 0) schedD = true := by decide +kernel
  obtain ⟨C, t, ch, e, h1, h2, h3⟩ := loop_scheduled (a := 3) (c := 27) (by decide) hl hq (same_conf rfl rfl rfl fun _ => rfl) (fun u hu => by
    match u, hu with
    | 0, _ => exact ⟨3, by decide, by decide, .inr (by decide +kernel)⟩
    | 1, _ => exact ⟨3, by decide, by decide, .inl (by decide +kernel)⟩
    | 2, _ => exact ⟨3, by decide, by decide, .inr (by decide +kernel)⟩)
  refine ⟨C, t, ch, e, h1, h2, fun i c hc => ?_⟩
  have := h3 i
  rw [hc] at this
  exact calm_spec this

/-! ### Spurious failures without end -/

/-- One producer with one iteration, no consumer. A compare-exchange in `push` fails spuriously, again and again. -/
def schedS : Sched := withTaus 1 0 1 100 (begin 1 0 1) [(0, .go), (0, .go), (0, .go), (0, .inner (.act .go)), (0, .inner (.act .go)), (0, .inner (.act .spur)),
  (0, .inner (.act .go)), (0, .inner (.act .spur))]

set_option maxRecDepth 100000 in
/-- **C77 (the assumption on spurious failures is needed).** All others hold. -/
theorem queue_example_spurious_needed : ∃ C t ch e,
    FairRun (program cRep Nat).mach (exampleSetup cRep 1 0 1) (Program.ok fun _ _ => True) (SConf.initial cRep 1).s C t ch e ∧
      ∀ i, (C i).s.1.mem.nalloc < cRep.limit := by
  have hl : schedS.length = 28 + 12 := by decide +kernel
  have hq : check 1 0 1 (fun g _ => !g.done) (begin 1 0 1) schedS = true := by decide +kernel
  obtain ⟨C, t, ch, e, h1, h2, h3⟩ := loop_scheduled (a := 28) (c := 12) (by decide) hl hq (same_conf rfl rfl rfl fun _ => rfl) (fun u hu => by
    match u, hu with
    | 0, _ => exact ⟨28, by decide, by decide, .inl (by decide +kernel)⟩
    | 1, _ => exact ⟨28, by decide, by decide, .inr (by decide +kernel)⟩)
  refine ⟨C, t, ch, e, ⟨h1, fun n hn => ?_⟩, h2⟩
  have := h3 n
  rw [hn] at this
  cases this

/-! ### The theorem -/

/-- C77: the first of these executions violates the assumption on `done`, -/
example : ∃ C t ch e,
    ScheduledRun (program cRep Nat).mach (exampleSetup cRep 1 1 0) (Program.ok fun _ _ => True) (SConf.initial cRep 1).s C t ch e ∧
      ¬ ∀ n, (C n).s.2.done = true → ∃ j, ∀ i, j ≤ i → ch i ≠ .stale := by
  obtain ⟨C, t, ch, e, h1, h2, h3⟩ := queue_example_done_needed
  exact ⟨C, t, ch, e, h1, fun h => queue_example_ends cRep_faithful (by decide) rfl ⟨⟨h1, h⟩, h2, 0, fun i _ => h3 i⟩⟩

/-- the second one that on spurious failures. -/
example : ∃ C t ch e,
    FairRun (program cRep Nat).mach (exampleSetup cRep 1 0 1) (Program.ok fun _ _ => True) (SConf.initial cRep 1).s C t ch e ∧
      ¬ ∃ N, ∀ i, N ≤ i → ∀ c, ch i = .inner c → casFails (Mach.pcOf (program cRep Nat).mach ((C i).pc (t i))) c = false := by
  obtain ⟨C, t, ch, e, h1, h2⟩ := queue_example_spurious_needed
  exact ⟨C, t, ch, e, h1, fun h => queue_example_ends cRep_faithful (by decide) rfl ⟨h1, h2, h⟩⟩

end Verif.Queue.Code.EndsEx
