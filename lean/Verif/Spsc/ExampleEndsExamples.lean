import Verif.ExampleRun
import Verif.Spsc.ExampleEnds
import Verif.Spsc.TextExamples

/-!
# examples/spsc_queue.cpp: executions without end (C69)

No further code of /repo is modelled here. Assumptions of `spsc_example_ends` that are needed: there are executions without end that satisfy all others.
-/

namespace Verif.Spsc.Code.EndsEx
open Lin Text Example TextEx

/-! ### Executions that repeat themselves -/

section
variable {S P Ch O R : Type} {m : Mach S P Ch O R} {ok : S → P → Ch → Prop} {T : Nat}

/-- One step. -/
def next (m : Mach S P Ch O R) (C : MConf S P) (a : Nat × Ch) : MConf S P × Option (Event O R) :=
  match m.step a.1 C.s (C.pc a.1) a.2 with
  | some (s', p', e) => (⟨s', upd C.pc a.1 p'⟩, e)
  | none => (C, none)

/-- The configuration after the first `n` steps of a schedule. -/
def conf (m : Mach S P Ch O R) (C : MConf S P) : List (Nat × Ch) → Nat → MConf S P
  | [], _ | _, 0 => C
  | a :: l, n + 1 =>
    match next m C a with
    | (C', _) => conf m C' l n

theorem conf_succ {C : MConf S P} {l : List (Nat × Ch)} {i : Nat} {a} (h : l[i]? = some a) : conf m C l (i + 1) = (next m (conf m C l i) a).1 := by
  induction l generalizing C i with
  | nil => simp at h
  | cons b l ih =>
    cases i with
    | zero => cases h; cases l <;> rfl
    | succ i =>
      simp only [List.getElem?_cons_succ] at h
      simp only [conf]
      exact ih h

/-- The position in a schedule whose steps from `a` on are repeated. -/
def pos (a c n : Nat) : Nat := if n < a then n else a + (n - a) % c

theorem pos_lt {a c n : Nat} (hc : 0 < c) : pos a c n < a + c := by
  unfold pos
  have := Nat.mod_lt (n - a) hc
  split <;> omega

theorem pos_succ {a c n : Nat} (hc : 0 < c) : pos a c (n + 1) = if pos a c n + 1 = a + c then a else pos a c n + 1 := by
  have h1 := Nat.mod_lt (n - a) hc
  unfold pos
  by_cases h : n + 1 < a
  · rw [if_pos h, if_pos (show n < a by omega), if_neg (by omega)]
  · rw [if_neg h]
    by_cases h2 : n < a
    · rw [if_pos h2, show n + 1 - a = 0 by omega, Nat.zero_mod]
      have : a = n + 1 := by omega
      split <;> omega
    · rw [if_neg h2, show n + 1 - a = (n - a) + 1 by omega, Nat.add_mod]
      have h3 : 1 % c = if c = 1 then 0 else 1 := by
        split
        · subst_vars; rfl
        · exact Nat.mod_eq_of_lt (by omega)
      rw [h3]
      split
      · rename_i h4
        subst h4
        have : (n - a) % 1 = 0 := Nat.mod_one _
        simp [this]
      · by_cases h5 : (n - a) % c + 1 = c
        · rw [h5, Nat.mod_self, if_pos (by omega), Nat.add_zero]
        · rw [Nat.mod_eq_of_lt (by omega), if_neg (by omega)]; omega

theorem pos_again {a c i : Nat} (h1 : a ≤ i) (h2 : i < a + c) (n : Nat) : pos a c (i + c * n) = i := by
  unfold pos
  rw [if_neg (by omega), show i + c * n - a = (i - a) + c * n by omega, Nat.add_mul_mod_self_left, Nat.mod_eq_of_lt (by omega)]
  omega

variable {C₀ : MConf S P} {l : List (Nat × Ch)} {a c : Nat} [Inhabited Ch]

/-- The schedule. -/
def at' (l : List (Nat × Ch)) (i : Nat) : Nat × Ch := l[i]?.getD (0, default)

theorem at'_eq {i : Nat} (h : i < l.length) : l[i]? = some (at' l i) := by
  unfold at'
  rw [List.getElem?_eq_getElem h]; rfl

theorem forever_loop (hc : 0 < c) (hl : l.length = a + c)
    (h : ∀ i < a + c, (at' l i).1 < T ∧ (m.step (at' l i).1 (conf m C₀ l i).s ((conf m C₀ l i).pc (at' l i).1) (at' l i).2).isSome = true ∧
      ok (conf m C₀ l i).s ((conf m C₀ l i).pc (at' l i).1) (at' l i).2)
    (hr : conf m C₀ l (a + c) = conf m C₀ l a) :
    Forever m ok T (fun n => conf m C₀ l (pos a c n)) (fun n => (at' l (pos a c n)).1) (fun n => (at' l (pos a c n)).2)
      (fun n => (next m (conf m C₀ l (pos a c n)) (at' l (pos a c n))).2) where
  thread n := (h _ (pos_lt hc)).1
  ok n := (h _ (pos_lt hc)).2.2
  step n := by
    have h1 := pos_lt (a := a) (n := n) hc
    have h2 : conf m C₀ l (pos a c (n + 1)) = conf m C₀ l (pos a c n + 1) := by
      rw [pos_succ hc]
      split
      · rename_i h; rw [h, hr]
      · rfl
    have h3 := (h _ h1).2.1
    rw [Option.isSome_iff_exists] at h3
    obtain ⟨⟨s', p', e⟩, h3⟩ := h3
    rw [h2, conf_succ (at'_eq (by omega))]
    refine ⟨p', ?_, ?_⟩ <;> simp only [next, h3]

end

/-! ### The program -/

variable {cfg : Cfg} {sc : Bool} {k : Nat}

abbrev Sched := List (Nat × Example.Choice (TChoice (Spsc.Choice Nat) (Op Nat)))

instance : Inhabited (Example.Choice (TChoice (Spsc.Choice Nat) (Op Nat))) := ⟨.go⟩

abbrev theMach (cfg : Cfg) (sc : Bool) (k : Nat) := Example.mach (program Nat cfg sc).mach (exampleSetup k)

/-- The schedule with the steps that need no access written out. -/
def withTaus (m : Mach (St Nat × Vars) (Example.PC (TPC (St Nat) (Loc Nat) (Spsc.Choice Nat) (Ret Nat))) (Example.Choice (TChoice (Spsc.Choice Nat) (Op Nat)))
    (Op Nat) (Ret Nat)) : Nat → EConf → Sched → Sched
  | 0, _, _ | _, _, [] => []
  | f + 1, C, (t, ch) :: l =>
    let C' := (next m C (t, ch)).1
    (t, ch) :: (if (m.step t C'.s (C'.pc t) (.inner .tau)).isSome then withTaus m f C' ((t, .inner .tau) :: l) else withTaus m f C' l)

def start (k : Nat) : EConf := Example.initial (exampleSetup k) St.initial

/-- Thread `t` makes a call, with these choices. -/
def call (t : Nat) (l : List Nat) : Sched := (t, .go) :: l.map fun i => (t, .inner (.act (.go i)))

def isEnv : Example.Choice (TChoice (Spsc.Choice Nat) (Op Nat)) → Bool
  | .inner (.env _) => true
  | _ => false

def isTerminated {P : Type} : Example.PC P → Bool
  | .at .terminated => true
  | _ => false

/-- The thread waits, or has ended. -/
def waits {P : Type} (g : Vars) : Example.PC P → Bool
  | .at .ended => true
  | .at .joinProducers => !g.ended 0
  | .at .joinConsumers => !g.ended 1
  | _ => false

theorem waits_spec {C : EConf} {u : Nat} (h : waits C.s.2 (C.pc u) = true) : ¬ CanStep cfg sc k C u := by
  rintro ⟨ch, ⟨σ, p', e⟩, -, h2⟩
  have h3 := trans_of_step h2
  generalize C.pc u = p at h h3
  obtain ⟨s₂, g₂⟩ := σ
  simp only at h3
  cases h3 <;> simp [waits] at h
  · rename_i h4 _; simp [h4 0 (by simp [exampleSetup])] at h
  · rename_i h4; have := h4 0 (by simp [exampleSetup]); simp [exampleSetup, h] at this

/-- What is checked of one step. -/
def stepOk (cfg : Cfg) (sc : Bool) (k : Nat) (C : EConf) (b : Nat × Example.Choice (TChoice (Spsc.Choice Nat) (Op Nat))) : Bool :=
  decide (b.1 < 3) && ((theMach cfg sc k).step b.1 C.s (C.pc b.1) b.2).isSome && okByB (program Nat cfg sc) (exampleSetup k) okc C.s (C.pc b.1) b.2 &&
    !isEnv b.2 && !isTerminated (C.pc 0) && !isTerminated (C.pc 1)

/-- All steps of a schedule, and all configurations before them. -/
def check (cfg : Cfg) (sc : Bool) (k : Nat) (q : St Nat × Vars → Bool) : EConf → Sched → Bool
  | _, [] => true
  | C, b :: l => stepOk cfg sc k C b && q C.s && check cfg sc k q (next (theMach cfg sc k) C b).1 l

theorem check_spec {q : St Nat × Vars → Bool} {l : Sched} : ∀ {C : EConf}, check cfg sc k q C l = true → ∀ i < l.length,
    stepOk cfg sc k (conf (theMach cfg sc k) C l i) (at' l i) = true ∧ q (conf (theMach cfg sc k) C l i).s = true := by
  induction l with
  | nil => intro C _ i hi; simp at hi
  | cons b l ih =>
    intro C h i hi
    simp only [check, Bool.and_eq_true] at h
    cases i with
    | zero => exact h.1
    | succ i => exact ih h.2 i (by simpa using hi)

/-- A schedule that repeats itself. -/
theorem loop_scheduled {l : Sched} {a c : Nat} (hc : 0 < c) (hl : l.length = a + c) {q : St Nat × Vars → Bool} (h : check cfg sc k q (start k) l = true)
    (hr : conf (theMach cfg sc k) (start k) l (a + c) = conf (theMach cfg sc k) (start k) l a)
    (hs : ∀ u < 3, ∃ i, a ≤ i ∧ i < a + c ∧ ((at' l i).1 = u ∨
      waits (conf (theMach cfg sc k) (start k) l i).s.2 ((conf (theMach cfg sc k) (start k) l i).pc u) = true)) :
    ScheduledRun cfg sc k (fun n => conf (theMach cfg sc k) (start k) l (pos a c n)) (fun n => (at' l (pos a c n)).1) (fun n => (at' l (pos a c n)).2)
      (fun n => (next (theMach cfg sc k) (conf (theMach cfg sc k) (start k) l (pos a c n)) (at' l (pos a c n))).2) := by
  have h' : ∀ i < a + c, _ := fun i hi => by
    have := (check_spec h i (by omega)).1
    simp only [stepOk, Bool.and_eq_true, decide_eq_true_eq, Bool.not_eq_true'] at this
    exact this
  have hf : Forever (theMach cfg sc k) (okBy (program Nat cfg sc).mach (exampleSetup k) (Program.ok okCall)) 3
      (fun n => conf (theMach cfg sc k) (start k) l (pos a c n)) (fun n => (at' l (pos a c n)).1) (fun n => (at' l (pos a c n)).2)
      (fun n => (next (theMach cfg sc k) (conf (theMach cfg sc k) (start k) l (pos a c n)) (at' l (pos a c n))).2) :=
    forever_loop hc hl (fun i hi => ⟨(h' i hi).1.1.1.1.1, (h' i hi).1.1.1.1.2, okByB_spec okc_spec (h' i hi).1.1.1.2⟩) hr
  have h0 : (fun n => conf (theMach cfg sc k) (start k) l (pos a c n)) 0 = Example.initial (exampleSetup k) St.initial := by
    have : pos a c 0 = 0 := by unfold pos; split <;> simp; omega
    simp only [this]
    cases l <;> rfl
  refine ⟨hf, h0, ?_, ?_, ?_⟩
  · intro u hu n
    obtain ⟨i, h1, h2, h3⟩ := hs u hu
    have h4 : n ≤ c * n := Nat.le_mul_of_pos_left n hc
    refine ⟨i + c * n, by omega, ?_⟩
    simp only [pos_again h1 h2]
    exact h3.imp id waits_spec
  · intro n x hx
    have := (h' _ (pos_lt (n := n) hc)).1.1.2
    rw [hx] at this
    simp [isEnv] at this
  · intro n u hu
    have h1 := (example_inv (forever_runs hf h0 n)).role u
    rw [hu] at h1
    have h2 : u < 2 := h1
    have h3 := h' _ (pos_lt (n := n) hc)
    match u, h2 with
    | 0, _ => have := h3.1.2; rw [hu] at this; simp [isTerminated] at this
    | 1, _ => have := h3.2; rw [hu] at this; simp [isTerminated] at this

theorem same_conf {C D : EConf} (hs : C.s = D.s) (h0 : C.pc 0 = D.pc 0) (h1 : C.pc 1 = D.pc 1) (h2 : ∀ u, C.pc (u + 2) = D.pc (u + 2)) : C = D := by
  obtain ⟨s, pc⟩ := C
  obtain ⟨s', pc'⟩ := D
  simp only at hs h0 h1 h2
  subst hs
  congr 1
  funext u
  match u with
  | 0 => exact h0
  | 1 => exact h1
  | u + 2 => exact h2 u

/-! ### `done` never seen -/

/-- No iteration; `main` sets `done`; the consumer loads `false` from `done` and finds the queue empty, again and again. -/
def schedD : Sched := withTaus (theMach cfg2 false 0) 100 (start 0) ([(0, .go), (2, .go), (2, .go)] ++ (1, .stale) :: call 1 [0, 0])

set_option maxRecDepth 100000 in
/-- Without `DoneSeen`. -/
theorem spsc_example_done_needed : ∃ C t ch e, ScheduledRun cfg2 false 0 C t ch e ∧ ProducerSees C e ∧ ConsumerSees C e := by
  have hl : schedD.length = 3 + 16 := by decide +kernel
  have hq : check cfg2 false 0 (fun σ => decide (σ.1.rlast = 0 ∧ σ.1.wlast = 0)) (start 0) schedD = true := by decide +kernel
  have h := fun n => (check_spec hq (pos 3 16 n) (by rw [hl]; exact pos_lt (by decide))).2
  simp only [decide_eq_true_eq] at h
  refine ⟨_, _, _, _, loop_scheduled (a := 3) (c := 16) (by decide) hl hq (same_conf rfl rfl rfl fun _ => rfl) (fun u hu => ?_), ?_, ?_⟩
  · match u, hu with
    | 0, _ => exact ⟨3, by decide, by decide, .inr (by decide +kernel)⟩
    | 1, _ => exact ⟨18, by decide, by decide, .inl (by decide +kernel)⟩
    | 2, _ => exact ⟨3, by decide, by decide, .inr (by decide +kernel)⟩
  · exact fun _ n => ⟨0, by simp only [h n, Nat.zero_le]⟩
  · exact fun _ n => ⟨0, by simp only [h n, Nat.zero_le]⟩

/-! ### `write_index_` never seen -/

/-- Capacity 1. -/
def cfg1 : Cfg := ⟨2, false⟩

theorem cfg1_holds : Holds cfg1 1 := ⟨rfl, by decide⟩

/-- Two iterations, capacity 1. The first `push` succeeds, the second one finds the queue full, again and again; the consumer loads the initial value of `write_index_`,
again and again. -/
def schedC : Sched := withTaus (theMach cfg1 false 2) 200 (start 2)
  (steps 0 2 ++ call 0 [0, 0, 0, 0] ++ steps 0 2 ++ (call 0 [1, 0] ++ (1, .go) :: call 1 [0, 0]))

set_option maxRecDepth 100000 in
/-- Without `ConsumerSees`. -/
theorem spsc_example_write_index_needed : ∃ C t ch e, ScheduledRun cfg1 false 2 C t ch e ∧ DoneSeen C ch ∧ ProducerSees C e := by
  have hl : schedC.length = 37 + 47 := by decide +kernel
  have hq : check cfg1 false 2 (fun σ => decide (σ.2.done = false ∧ σ.1.rlast = 0)) (start 2) schedC = true := by decide +kernel
  have h := fun n => (check_spec hq (pos 37 47 n) (by rw [hl]; exact pos_lt (by decide))).2
  simp only [decide_eq_true_eq] at h
  refine ⟨_, _, _, _, loop_scheduled (a := 37) (c := 47) (by decide) hl hq (same_conf rfl rfl rfl fun _ => rfl) (fun u hu => ?_), ?_, ?_⟩
  · match u, hu with
    | 0, _ => exact ⟨37, by decide, by decide, .inl (by decide +kernel)⟩
    | 1, _ => exact ⟨83, by decide, by decide, .inl (by decide +kernel)⟩
    | 2, _ => exact ⟨37, by decide, by decide, .inr (by decide +kernel)⟩
  · intro n hn
    have := (h n).1
    rw [hn] at this
    cases this
  · exact fun _ n => ⟨0, by simp only [h n, Nat.zero_le]⟩

/-! ### No room -/

/-- Capacity 0. -/
def cfg0 : Cfg := ⟨1, false⟩

theorem cfg0_holds : Holds cfg0 0 := ⟨rfl, by decide⟩

/-- One iteration. `push` fails, again and again. -/
def schedZ : Sched := withTaus (theMach cfg0 false 1) 200 (start 1) (steps 0 2 ++ (call 0 [0, 0] ++ (1, .go) :: call 1 [0, 0]))

set_option maxRecDepth 100000 in
/-- All assumptions about scheduler and memory hold. -/
theorem no_room : ∃ C t ch e, ScheduledRun cfg0 false 1 C t ch e ∧ DoneSeen C ch ∧ ProducerSees C e ∧ ConsumerSees C e := by
  have hl : schedZ.length = 2 + 47 := by decide +kernel
  have hq : check cfg0 false 1 (fun σ => decide (σ.2.done = false ∧ σ.1.rlast = 0 ∧ σ.1.wlast = 0)) (start 1) schedZ = true := by decide +kernel
  have h := fun n => (check_spec hq (pos 2 47 n) (by rw [hl]; exact pos_lt (by decide))).2
  simp only [decide_eq_true_eq] at h
  refine ⟨_, _, _, _, loop_scheduled (a := 2) (c := 47) (by decide) hl hq (same_conf rfl rfl rfl fun _ => rfl) (fun u hu => ?_), ?_, ?_, ?_⟩
  · match u, hu with
    | 0, _ => exact ⟨2, by decide, by decide, .inl (by decide +kernel)⟩
    | 1, _ => exact ⟨48, by decide, by decide, .inl (by decide +kernel)⟩
    | 2, _ => exact ⟨2, by decide, by decide, .inr (by decide +kernel)⟩
  · intro n hn
    have := (h n).1
    rw [hn] at this
    cases this
  · exact fun _ n => ⟨0, by simp only [h n, Nat.zero_le]⟩
  · exact fun _ n => ⟨0, by simp only [h n, Nat.zero_le]⟩

/-- A queue that can hold no element: the program need not end. -/
theorem spsc_example_room_needed : ∃ C t ch e, FairRun cfg0 false 1 C t ch e := by
  obtain ⟨C, t, ch, e, h1, h2, h3, h4⟩ := no_room
  exact ⟨C, t, ch, e, ⟨h1, h2, h3, h4⟩⟩

/-! ### The theorems -/

/-- C69: the execution in which `done` is never seen violates `DoneSeen`. -/
example : ∃ C t ch e, ScheduledRun cfg2 false 0 C t ch e ∧ ¬ DoneSeen C ch := by
  obtain ⟨C, t, ch, e, h1, h2, h3⟩ := spsc_example_done_needed
  exact ⟨C, t, ch, e, h1, fun h => spsc_example_ends cfg2_holds (by decide) ⟨h1, h, h2, h3⟩⟩

/-- C69: at the beginning some thread can make a step. -/
example : ∃ u < 3, CanStep cfg2 false 3 (start 3) u :=
  spsc_example_never_stuck cfg2_holds (.refl _) (fun u => by simp only [start, Example.initial]; split <;> [simp; split <;> [simp; split <;> simp]]) (by simp [start, Example.initial, exampleSetup])

end Verif.Spsc.Code.EndsEx
