import Verif.TextTotal

/-!
# The same program on related states; programs as parts of larger ones

No code of /repo is modelled here.
-/

namespace Verif.Text
open Lin

variable {S S' L Ch O R : Type}

/-! ### Accesses of a program -/

/-- All accesses in a statement satisfy `p`. -/
def Stm.All (p : Access S L Ch → Prop) : Stm S L Ch → Prop
  | .acc a => p a
  | .set _ | .brk | .cont | .ret | .rethrow => True
  | .seq a b | .ite _ a b | .tryCatch a b => a.All p ∧ b.All p
  | .forever a | .fn a => a.All p

def Item.All (p : Access S L Ch → Prop) : Item S L Ch → Prop
  | .stm a | .loop a | .handler a => a.All p
  | .fn => True

/-- All accesses in what remains satisfy `p`. -/
def AllRest (p : Access S L Ch → Prop) (k : Rest S L Ch) : Prop := ∀ i ∈ k, i.All p

/-- The same for a program counter. -/
def AllPC (p : Access S L Ch → Prop) : TPC S L Ch R → Prop
  | .run _ k => AllRest p k
  | _ => True

variable {p : Access S L Ch → Prop} {k k' : Rest S L Ch} {l l' : L}

theorem Stm.All.mono {q : Access S L Ch → Prop} (h : ∀ a, p a → q a) {x : Stm S L Ch} (hx : x.All p) : x.All q := by
  induction x with
  | acc a => exact h a hx
  | set | brk | cont | ret | rethrow => trivial
  | seq a b iha ihb | ite c a b iha ihb | tryCatch a b iha ihb => exact ⟨iha hx.1, ihb hx.2⟩
  | forever a ih | fn a ih => exact ih hx

theorem AllRest.nil : AllRest p [] := fun _ h => by simp at h

theorem AllRest.cons_iff {i : Item S L Ch} : AllRest p (i :: k) ↔ i.All p ∧ AllRest p k := by simp [AllRest]

theorem AllRest.afterLoop (h : AllRest p k) : AllRest p (afterLoop k) := by
  induction k with
  | nil => exact h
  | cons i k ih =>
    have h1 := (AllRest.cons_iff.1 h).2
    cases i <;> first | exact h1 | exact ih h1

theorem AllRest.toLoop (h : AllRest p k) : AllRest p (toLoop k) := by
  induction k with
  | nil => exact h
  | cons i k ih => cases i <;> first | exact h | exact ih (AllRest.cons_iff.1 h).2

theorem AllRest.afterFn (h : AllRest p k) : AllRest p (afterFn k) := by
  induction k with
  | nil => exact h
  | cons i k ih =>
    have h1 := (AllRest.cons_iff.1 h).2
    cases i <;> first | exact h1 | exact ih h1

theorem AllRest.toHandler (h : AllRest p k) : AllRest p (toHandler k) := by
  induction k with
  | nil => exact h
  | cons i k ih =>
    have h1 := AllRest.cons_iff.1 h
    cases i <;> first | exact AllRest.cons_iff.2 h1 | exact ih h1.2

theorem AllRest.rest (h : AllRest p k) (f : Flow) : AllRest p (f.rest k) := by
  cases f <;> first | exact h | exact h.toHandler

theorem AllRest.ctl (h : AllRest p k) (hc : ctl l k = some (l', k')) : AllRest p k' := by
  cases k with
  | nil => simp [Text.ctl] at hc
  | cons i k =>
    obtain ⟨h1, h2⟩ := AllRest.cons_iff.1 h
    cases i with
    | stm x =>
      cases x <;> simp only [Text.ctl, Option.some.injEq, Prod.mk.injEq, reduceCtorEq] at hc <;> obtain ⟨rfl, rfl⟩ := hc
      case set => exact h2
      case seq => exact AllRest.cons_iff.2 ⟨h1.1, AllRest.cons_iff.2 ⟨h1.2, h2⟩⟩
      case ite c a b => refine AllRest.cons_iff.2 ⟨?_, h2⟩; show Stm.All p _; split <;> [exact h1.1; exact h1.2]
      case forever => exact AllRest.cons_iff.2 ⟨h1, AllRest.cons_iff.2 ⟨h1, h2⟩⟩
      case brk => exact h2.afterLoop
      case cont => exact h2.toLoop
      case ret => exact h2.afterFn
      case fn => exact AllRest.cons_iff.2 ⟨h1, AllRest.cons_iff.2 ⟨trivial, h2⟩⟩
      case tryCatch => exact AllRest.cons_iff.2 ⟨h1.1, AllRest.cons_iff.2 ⟨h1.2, h2⟩⟩
      case rethrow => exact h2.toHandler
    | loop a =>
      simp only [Text.ctl, Option.some.injEq, Prod.mk.injEq] at hc; obtain ⟨rfl, rfl⟩ := hc
      exact AllRest.cons_iff.2 ⟨h1, AllRest.cons_iff.2 ⟨h1, h2⟩⟩
    | fn | handler => simp only [Text.ctl, Option.some.injEq, Prod.mk.injEq] at hc; obtain ⟨rfl, rfl⟩ := hc; exact h2

/-! ### Related states -/

/-- What the access does from a state, it can do from a related one, with the same effect on local variables and control; `same` relates the resolutions. -/
def Tracks (rel : S → S → Prop) (same : Ch → Ch → Prop) (a : Access S L Ch) : Prop :=
  ∀ t s s' l ch s₁ l₁ f, rel s s' → a.run t s l ch = some (s₁, l₁, f) →
    ∃ ch' s₁', same ch ch' ∧ (a.ok s l ch = true → a.ok s' l ch' = true) ∧ a.run t s' l ch' = some (s₁', l₁, f) ∧ rel s₁ s₁'

variable {rel : S → S → Prop} {same : Ch → Ch → Prop} {P : Program S L Ch O R} {okc okc' : S → O → Prop}

theorem Program.follow_step (hb : ∀ t o l x, P.body t o = some (l, x) → x.All (Tracks rel same))
    (henv : ∀ t s s' ch s₁, rel s s' → P.env t s ch = some s₁ → ∃ ch' s₁', P.env t s' ch' = some s₁' ∧ rel s₁ s₁')
    (hc : ∀ s s' o, rel s s' → okc s o → okc' s' o) {t : Nat} {s s' s₁ : S} {q q₁ : TPC S L Ch R} {ch : TChoice Ch O} {e} (hr : rel s s')
    (hq : AllPC (Tracks rel same) q) (hs : P.mach.step t s q ch = some (s₁, q₁, e)) (hok : Program.ok okc s q ch) :
    ∃ ch' s₁', P.mach.step t s' q ch' = some (s₁', q₁, e) ∧ Program.ok okc' s' q ch' ∧ rel s₁ s₁' ∧ AllPC (Tracks rel same) q₁ ∧
      (∀ t u, stepsOfThread t u ch' = stepsOfThread t u ch) ∧ (∀ c, ch = .act c → ∃ c', ch' = .act c' ∧ same c c') := by
  simp only [Program.mach] at hs
  split at hs
  · rename_i o
    simp only [Option.map_eq_some_iff, Prod.mk.injEq] at hs
    obtain ⟨x, h1, rfl, rfl, rfl⟩ := hs
    exact ⟨.call o, s', by simp [Program.mach, h1], hc _ _ _ hr hok, hr, AllRest.cons_iff.2 ⟨hb _ _ _ _ h1, .nil⟩, fun _ _ => rfl, by simp⟩
  · simp only [Option.some.injEq, Prod.mk.injEq] at hs
    obtain ⟨rfl, rfl, rfl⟩ := hs
    exact ⟨.tau, s', rfl, trivial, hr, trivial, fun _ _ => rfl, by simp⟩
  · rename_i l k hk
    simp only [Option.map_eq_some_iff, Prod.mk.injEq] at hs
    obtain ⟨x, h1, rfl, rfl, rfl⟩ := hs
    refine ⟨.tau, s', ?_, by simp only [Program.ok], hr, AllRest.ctl hq h1, fun _ _ => rfl, by simp⟩
    cases k with
    | nil => exact absurd rfl hk
    | cons => simp [Program.mach, h1]
  · rename_i l a k ch
    obtain ⟨h1, h2⟩ := AllRest.cons_iff.1 hq
    split at hs
    · simp at hs
    · rename_i h3
      simp only [Option.some.injEq, Prod.mk.injEq] at hs
      obtain ⟨rfl, rfl, rfl⟩ := hs
      obtain ⟨ch', s₁', g1, g2, g3, g4⟩ := h1 _ _ _ _ _ _ _ _ hr h3
      exact ⟨.act ch', s₁', by simp only [Program.mach, g3], g2 hok, g4, h2, fun _ _ => rfl, fun c h => by cases h; exact ⟨_, rfl, g1⟩⟩
    · rename_i h3
      simp only [Option.some.injEq, Prod.mk.injEq] at hs
      obtain ⟨rfl, rfl, rfl⟩ := hs
      obtain ⟨ch', s₁', g1, g2, g3, g4⟩ := h1 _ _ _ _ _ _ _ _ hr h3
      exact ⟨.act ch', s₁', by simp only [Program.mach, g3], g2 hok, g4, h2.toHandler, fun _ _ => rfl, fun c h => by cases h; exact ⟨_, rfl, g1⟩⟩
    · rename_i h3
      simp only [Option.some.injEq, Prod.mk.injEq] at hs
      obtain ⟨rfl, rfl, rfl⟩ := hs
      obtain ⟨ch', s₁', g1, g2, g3, g4⟩ := h1 _ _ _ _ _ _ _ _ hr h3
      exact ⟨.act ch', s₁', by simp only [Program.mach, g3], g2 hok, g4, trivial, fun _ _ => rfl, fun c h => by cases h; exact ⟨_, rfl, g1⟩⟩
  · simp only [Option.some.injEq, Prod.mk.injEq] at hs
    obtain ⟨rfl, rfl, rfl⟩ := hs
    exact ⟨.tau, s', rfl, trivial, hr, trivial, fun _ _ => rfl, by simp⟩
  · simp only [Option.map_eq_some_iff, Prod.mk.injEq] at hs
    obtain ⟨x, h1, rfl, rfl, rfl⟩ := hs
    obtain ⟨ch', s₁', g1, g2⟩ := henv _ _ _ _ _ hr h1
    refine ⟨.env ch', s₁', ?_, by cases q <;> simp only [Program.ok], g2, hq, fun _ _ => rfl, by simp⟩
    cases q <;> simp [Program.mach, g1]
  · simp at hs

/-- A property of the accesses of all calls. -/
theorem Program.all_step {p : Access S L Ch → Prop} (hb : ∀ t o l x, P.body t o = some (l, x) → x.All p) {t : Nat} {s s₁ : S} {q q₁ : TPC S L Ch R} {ch : TChoice Ch O} {e}
    (hq : AllPC p q) (hs : P.mach.step t s q ch = some (s₁, q₁, e)) : AllPC p q₁ := by
  simp only [Program.mach] at hs
  split at hs
  · simp only [Option.map_eq_some_iff, Prod.mk.injEq] at hs
    obtain ⟨x, h1, rfl, rfl, rfl⟩ := hs
    exact AllRest.cons_iff.2 ⟨hb _ _ _ _ h1, .nil⟩
  · cases hs; trivial
  · simp only [Option.map_eq_some_iff, Prod.mk.injEq] at hs
    obtain ⟨x, h1, rfl, rfl, rfl⟩ := hs
    exact AllRest.ctl hq h1
  · obtain ⟨h1, h2⟩ := AllRest.cons_iff.1 hq
    split at hs
    · simp at hs
    · cases hs; exact h2
    · cases hs; exact h2.toHandler
    · cases hs; trivial
  · cases hs; trivial
  · simp only [Option.map_eq_some_iff, Prod.mk.injEq] at hs
    obtain ⟨x, h1, rfl, rfl, rfl⟩ := hs
    exact hq
  · simp at hs

theorem Program.all_steps {p : Access S L Ch → Prop} (hb : ∀ t o l x, P.body t o = some (l, x) → x.All p) {ok} {C C₁ : MConf S (TPC S L Ch R)} {h}
    (hq : ∀ t, AllPC p (C.pc t)) (hx : MSteps P.mach ok C h C₁) (t : Nat) : AllPC p (C₁.pc t) := by
  induction hx with
  | refl => exact hq t
  | @step h C u ch s₂ p₂ e _ hs _ ih =>
    show AllPC p (upd C.pc u p₂ t)
    by_cases hu : t = u
    · subst hu; rw [upd_self]; exact Program.all_step hb ih hs
    · rw [upd_ne _ _ _ hu]; exact ih

/-- Executions from a state are executions from related states, with the same history and program counters. -/
theorem Program.follow (hb : ∀ t o l x, P.body t o = some (l, x) → x.All (Tracks rel same))
    (henv : ∀ t s s' ch s₁, rel s s' → P.env t s ch = some s₁ → ∃ ch' s₁', P.env t s' ch' = some s₁' ∧ rel s₁ s₁')
    (hc : ∀ s s' o, rel s s' → okc s o → okc' s' o) {C C₁ : MConf S (TPC S L Ch R)} {h} {s' : S} (hr : rel C.s s')
    (hq : ∀ t, AllPC (Tracks rel same) (C.pc t)) (hx : MSteps P.mach (Program.ok okc) C h C₁) :
    ∃ s₁', MSteps P.mach (Program.ok okc') ⟨s', C.pc⟩ h ⟨s₁', C₁.pc⟩ ∧ rel C₁.s s₁' ∧ ∀ t, AllPC (Tracks rel same) (C₁.pc t) := by
  induction hx with
  | refl => exact ⟨s', .refl _, hr, hq⟩
  | @step h C t ch s₂ p₂ e _ hs hok ih =>
    obtain ⟨s₁', h1, h2, h3⟩ := ih
    obtain ⟨ch', s₂', h4, h5, h6, h7, -⟩ := Program.follow_step hb henv hc h2 (h3 t) hs hok
    refine ⟨s₂', h1.step h4 h5, h6, fun u => ?_⟩
    by_cases hu : u = t
    · subst hu; simpa using h7
    · simpa [upd_ne _ _ _ hu] using h3 u

/-- The same with the steps of a thread counted. -/
theorem Program.follow_count (hb : ∀ t o l x, P.body t o = some (l, x) → x.All (Tracks rel same))
    (henv : ∀ t s s' ch s₁, rel s s' → P.env t s ch = some s₁ → ∃ ch' s₁', P.env t s' ch' = some s₁' ∧ rel s₁ s₁')
    (hc : ∀ s s' o, rel s s' → okc s o → okc' s' o) {u : Nat} {C C₁ : MConf (S × Nat) (TPC S L Ch R)} {h} {s' : S} (hr : rel C.s.1 s')
    (hq : ∀ t, AllPC (Tracks rel same) (C.pc t))
    (hx : MSteps (P.mach.count (stepsOfThread u)) (fun s => Program.ok okc s.1) C h C₁) :
    ∃ s₁', MSteps (P.mach.count (stepsOfThread u)) (fun s => Program.ok okc' s.1) ⟨(s', C.s.2), C.pc⟩ h ⟨(s₁', C₁.s.2), C₁.pc⟩ ∧ rel C₁.s.1 s₁' ∧
      ∀ t, AllPC (Tracks rel same) (C₁.pc t) := by
  induction hx with
  | refl => exact ⟨s', .refl _, hr, hq⟩
  | @step h C t ch s₂ p₂ e _ hs hok ih =>
    obtain ⟨s₁', h1, h2, h3⟩ := ih
    obtain ⟨h8, h9⟩ := Mach.count_step hs
    obtain ⟨ch', s₂', h4, h5, h6, h7, h10, -⟩ := Program.follow_step hb henv hc h2 (h3 t) h8 hok
    refine ⟨s₂', ?_, h6, fun u => ?_⟩
    · rw [h9, ← h10]
      exact h1.step (t := t) (ch := ch') (by simp [Mach.count, h4]) h5
    · by_cases hu : u = t
      · subst hu; simpa using h7
      · simpa [upd_ne _ _ _ hu] using h3 u

variable {t n m f : Nat} {al : Ch → Prop} {sp : Ch → Bool} {Q Q' : S → L → Rest S L Ch → Prop} {s s' : S}

theorem Ends.follow (hal : ∀ ch ch', same ch ch' → al ch → al ch') (hsp : ∀ ch ch', same ch ch' → sp ch' = sp ch)
    (hk : AllRest (fun a => Tracks rel same a ∧ Tracks (fun s s' => rel s' s) same a) k)
    (hr : rel s s') (hQ : ∀ s s' l k, rel s s' → Q s' l k → Q' s l k) (h : Ends t al sp Q n f s' l k) : Ends t al sp Q' n f s l k := by
  induction h generalizing s with
  | here h => exact .here (hQ _ _ _ _ hr h)
  | step hc _ ih => exact .step hc (ih (hk.ctl hc) hr)
  | @acc n f s' l k a h1 h2 h3 h4 ih3 ih4 =>
    obtain ⟨⟨g1, g2⟩, g3⟩ := AllRest.cons_iff.1 hk
    have g4 : ∃ ch y, al ch ∧ sp ch = false ∧ a.ok s l ch = true ∧ a.run t s l ch = some y := by
      obtain ⟨ch, ⟨s₁, l₁, w⟩, j1, j2, j3, j4⟩ := h1
      obtain ⟨ch', s₁', i1, i2, i3, -⟩ := g2 _ _ _ _ _ _ _ _ hr j4
      exact ⟨ch', _, hal _ _ i1 j1, by rw [hsp _ _ i1, j2], i2 j3, i3⟩
    refine .acc g4 (fun ch s₁ l₁ ha ho hu => ?_) (fun ch s₁ l₁ w ha ho hs hu => ?_) (fun ch s₁ l₁ w g ha ho hs hf hu => ?_)
    · obtain ⟨ch', s₁', j1, j2, j3, -⟩ := g1 _ _ _ _ _ _ _ _ hr hu
      exact h2 ch' _ _ (hal _ _ j1 ha) (j2 ho) j3
    · obtain ⟨ch', s₁', j1, j2, j3, j4⟩ := g1 _ _ _ _ _ _ _ _ hr hu
      exact ih3 ch' _ _ _ (hal _ _ j1 ha) (j2 ho) (by rw [hsp _ _ j1, hs]) j3 (g3.rest _) j4
    · obtain ⟨ch', s₁', j1, j2, j3, j4⟩ := g1 _ _ _ _ _ _ _ _ hr hu
      exact ih4 ch' _ _ _ g (hal _ _ j1 ha) (j2 ho) (by rw [hsp _ _ j1, hs]) hf j3 (g3.rest _) j4

/-- What no access changes. -/
theorem Ends.keep {J : S → Prop} (hk : AllRest (fun a => ∀ t s l ch y, a.run t s l ch = some y → J s → J y.1) k) (hj : J s) (h : Ends t al sp Q n f s l k) :
    Ends t al sp (fun s l k => Q s l k ∧ J s) n f s l k := by
  induction h with
  | here h => exact .here ⟨h, hj⟩
  | step hc _ ih => exact .step hc (ih (hk.ctl hc) hj)
  | acc h1 h2 _ _ ih3 ih4 =>
    obtain ⟨g1, g2⟩ := AllRest.cons_iff.1 hk
    exact .acc h1 h2 (fun ch s₁ l₁ w ha ho hs hu => ih3 ch s₁ l₁ w ha ho hs hu (g2.rest _) (g1 _ _ _ _ _ hu hj))
      (fun ch s₁ l₁ w g ha ho hs hf hu => ih4 ch s₁ l₁ w g ha ho hs hf hu (g2.rest _) (g1 _ _ _ _ _ hu hj))

theorem Ends.weaken (hQ : ∀ s l k, Q s l k → Q' s l k) (h : Ends t al sp Q n f s l k) : Ends t al sp Q' n f s l k := by
  induction h with
  | here h => exact .here (hQ _ _ _ h)
  | step hc _ ih => exact .step hc ih
  | acc h1 h2 _ _ ih3 ih4 => exact .acc h1 h2 ih3 ih4

/-! ### From executions of a machine -/

/-- If executions of a call, by one thread alone, have a bounded number of steps, do not meet undefined behaviour and are not blocked. -/
theorem Ends.of_moves {Post : S → R → Prop}
    (hm : ∀ s' q' a b, Moves P.mach (P.okAl al) (spurious fun _ => false) t s (.run l k) [] s' q' a b →
      a ≤ n ∧ q' ≠ .err ∧ (∀ r, q' = .ret r → Post s' r) ∧
      (∀ l' k', q' = .run l' k' → ∃ ch y, (ch = .tau ∨ ∃ c, ch = .act c) ∧ P.okAl al s' q' ch ∧ P.mach.step t s' q' ch = some y)) :
    Ends t al (fun _ => false) (fun s l k => k = [] ∧ Post s (P.result l)) n f s l k := by
  have swf : ∀ (q : TPC S L Ch R) (ch : TChoice Ch O), spurious (fun _ => false) q ch = false := by intro q ch; cases ch <;> rfl
  induction n generalizing s l k with
  | zero =>
    cases k with
    | nil =>
      have h1 := Moves.one (m := P.mach) (okm := P.okAl al) (sw := spurious fun _ => false) (t := t) (s := s) (p := .run l []) (ch := .tau)
        ⟨trivial, by simp⟩ rfl
      exact .here ⟨rfl, (hm _ _ _ _ h1).2.2.1 _ rfl⟩
    | cons i k =>
      exfalso
      obtain ⟨ch, ⟨s₁, q₁, e⟩, h1, h2, h3⟩ := (hm _ _ _ _ .stay).2.2.2 _ _ rfl
      have he : e = none := by
        rcases h1 with rfl | ⟨c, rfl⟩
        · simp only [Program.mach, Option.map_eq_some_iff, Prod.mk.injEq] at h3; obtain ⟨_, _, _, _, h⟩ := h3; exact h.symm
        · match i with
          | .stm (.acc a) => simp only [Program.mach] at h3; split at h3 <;> simp at h3 <;> exact h3.2.2.symm
          | .loop _ | .fn | .handler _ => simp [Program.mach] at h3
          | .stm (.set _) | .stm (.seq _ _) | .stm (.ite _ _ _) | .stm (.forever _) | .stm .brk | .stm .cont | .stm .ret | .stm (.fn _)
          | .stm (.tryCatch _ _) | .stm .rethrow => simp [Program.mach] at h3
      subst he
      have h4 := Moves.one (sw := spurious fun _ => false) h2 h3
      have := (hm _ _ _ _ h4).1
      simp [swf] at this
  | succ n ih =>
    have go : ∀ {ch s₁ l₁ k₁}, P.okAl al s (.run l k) ch → P.mach.step t s (.run l k) ch = some (s₁, .run l₁ k₁, none) →
        Ends t al (fun _ => false) (fun s l k => k = [] ∧ Post s (P.result l)) n f s₁ l₁ k₁ := by
      intro ch s₁ l₁ k₁ h1 h2
      refine ih fun s' q' a b hm' => ?_
      have h4 := (Moves.one (sw := spurious fun _ => false) h1 h2).trans hm'
      obtain ⟨h5, h6⟩ := hm _ _ _ _ h4
      simp only [swf] at h5
      exact ⟨by simpa [Nat.add_comm] using h5, h6⟩
    cases k with
    | nil =>
      have h1 := Moves.one (m := P.mach) (okm := P.okAl al) (sw := spurious fun _ => false) (t := t) (s := s) (p := .run l []) (ch := .tau)
        ⟨trivial, by simp⟩ rfl
      exact .here ⟨rfl, (hm _ _ _ _ h1).2.2.1 _ rfl⟩
    | cons i k =>
      cases hc : Text.ctl l (i :: k) with
      | some x =>
        obtain ⟨l', k'⟩ := x
        exact .step hc (go (ch := .tau) ⟨by simp only [Program.ok], by simp⟩ (by simp [Program.mach, hc]))
      | none =>
        have hi : ∃ a, i = .stm (.acc a) := by
          cases i with
          | stm x => cases x <;> simp [Text.ctl] at hc; exact ⟨_, rfl⟩
          | loop | fn | handler => simp [Text.ctl] at hc
        obtain ⟨a, rfl⟩ := hi
        refine .acc ?_ ?_ ?_ (by simp)
        · obtain ⟨ch, y, h1, h2, h3⟩ := (hm _ _ _ _ .stay).2.2.2 _ _ rfl
          rcases h1 with rfl | ⟨c, rfl⟩
          · simp [Program.mach, Text.ctl] at h3
          · simp only [Program.mach] at h3
            cases hr : a.run t s l c with
            | none => simp [hr] at h3
            | some z => exact ⟨c, z, h2.2 c rfl, rfl, h2.1, hr⟩
        · intro ch s' l' ha ho hr
          have h1 := Moves.one (m := P.mach) (okm := P.okAl al) (sw := spurious fun _ => false) (t := t) (s := s) (p := .run l (.stm (.acc a) :: k))
            (ch := .act ch) (s' := s') (p' := .err) (e := none) ⟨ho, by rintro _ ⟨⟩; exact ha⟩ (by simp only [Program.mach, hr])
          exact (hm _ _ _ _ h1).2.1 rfl
        · intro ch s' l' w ha ho _ hr
          cases w with
          | next => exact go (ch := .act ch) ⟨ho, by rintro _ ⟨⟩; exact ha⟩ (by simp only [Program.mach, hr]; rfl)
          | throws => exact go (ch := .act ch) ⟨ho, by rintro _ ⟨⟩; exact ha⟩ (by simp only [Program.mach, hr]; rfl)
          | ub =>
            have h1 := Moves.one (m := P.mach) (okm := P.okAl al) (sw := spurious fun _ => false) (t := t) (s := s) (p := .run l (.stm (.acc a) :: k))
              (ch := .act ch) (s' := s') (p' := .err) (e := none) ⟨ho, by rintro _ ⟨⟩; exact ha⟩ (by simp only [Program.mach, hr])
            exact ((hm _ _ _ _ h1).2.1 rfl).elim

/-! ### A call executed alone -/

variable {P₀ : Program S L Ch O R} {PC : Type} {okm : S → PC → Ch → Prop}

theorem Program.step_congr (hres : P₀.result = P.result) {q : TPC S L Ch R} {ch : TChoice Ch O} (hq : q ≠ .idle) (hch : ch = .tau ∨ ∃ c, ch = .act c) :
    P.mach.step t s q ch = P₀.mach.step t s q ch := by
  rcases hch with rfl | ⟨c, rfl⟩
  · cases q with
    | idle => exact absurd rfl hq
    | ret | err => rfl
    | run l k =>
      cases k with
      | nil => simp only [Program.mach, hres]
      | cons i k => rfl
  · cases q with
    | idle => exact absurd rfl hq
    | ret | err => rfl
    | run l k =>
      cases k with
      | nil => rfl
      | cons i k =>
        cases i with
        | stm x => cases x <;> rfl
        | loop | fn | handler => rfl

/-- A call in a program whose environment does nothing is a call in one with the same functions. -/
theorem Moves.embed (hres : P₀.result = P.result) (he : ∀ t s ch, P₀.env t s ch = none) (hal : ∀ c, al c → sp c = false)
    {sw : TPC S L Ch R → TChoice Ch O → Bool} {h s' q' a b} (hm : Moves P₀.mach (P₀.okAl al) sw t s (.run l k) h s' q' a b) (hh : h = []) :
    q' ≠ .idle ∧ Moves P.mach (Program.ok okc) (spurious sp) t s (.run l k) [] s' q' (a + b) 0 ∧
    ∀ {C₀ h₀ n} {pc : Nat → TPC S L Ch R}, pc t = .run l k → MSteps (P.mach.count (stepsOfThread t)) (fun s => Program.ok okc s.1) C₀ h₀ ⟨(s, n), pc⟩ →
      MSteps (P.mach.count (stepsOfThread t)) (fun s => Program.ok okc s.1) C₀ h₀ ⟨(s', n + (a + b)), upd pc t q'⟩ := by
  induction hm with
  | stay =>
    refine ⟨by simp, .stay, fun {C₀ h₀ n pc} hp hx => ?_⟩
    rw [← hp, upd_eq_self]
    exact hx
  | @step h s₁ q₁ a b ch s' q' e hm hok hs ih =>
    have h0 : h = [] ∧ e.toList = [] := by simpa using hh
    obtain ⟨rfl, h0⟩ := h0
    have he' : e = none := by cases e <;> simp at h0 ⊢
    subst he'
    obtain ⟨h1, h2, h3⟩ := ih rfl
    have hch : ch = .tau ∨ ∃ c, ch = .act c := by
      cases ch with
      | tau => exact .inl rfl
      | act c => exact .inr ⟨c, rfl⟩
      | call o => cases q₁ <;> simp [Program.mach] at hs h1
      | env c => cases q₁ <;> simp [Program.mach, he] at hs
    have hq : q' ≠ .idle := by
      rintro rfl
      simp only [Program.mach] at hs
      (repeat' split at hs) <;> simp at hs
      simp [he] at hs
    have hsp : spurious (O := O) sp q₁ ch = false := by
      rcases hch with rfl | ⟨c, rfl⟩
      · rfl
      · exact hal c (hok.2 c rfl)
    have hk : Program.ok okc s₁ q₁ ch := by
      rcases hch with rfl | ⟨c, rfl⟩
      · cases q₁ <;> simp only [Program.ok]
      · have := hok.1
        revert this
        cases q₁ <;> simp only [Program.ok] <;> try exact fun _ => trivial
        split <;> simp_all
    have hs' := hs
    rw [← Program.step_congr hres h1 hch] at hs'
    have hsum : ∀ w : Bool, (a + if w then 0 else 1) + (b + if w then 1 else 0) = a + b + 1 := by intro w; cases w <;> simp <;> omega
    refine ⟨hq, ?_, fun {C₀ h₀ n pc} hp hx => ?_⟩
    · have := h2.step hk hs'
      rw [hsum]
      simpa [hsp] using this
    · have h4 := h3 hp hx
      have h5 : (P.mach.count (stepsOfThread t)).step t (s₁, n + (a + b)) (upd pc t q₁ t) ch = some ((s', n + (a + b) + 1), q', none) := by
        rw [upd_self]
        simp only [Mach.count, hs']
        rcases hch with rfl | ⟨c, rfl⟩ <;> simp [stepsOfThread]
      have h6 := h4.step (t := t) (ch := ch) h5 (by show Program.ok okc s₁ (upd pc t q₁ t) ch; rw [upd_self]; exact hk)
      rw [hsum]
      simpa [Nat.add_assoc, upd_upd] using h6

/-- Without spurious failures of the program, there are none of the machine. -/
theorem Refines.moves {m : Mach S PC Ch O R} {err : PC} {I : Nat → S → PC → Prop} {At : L → Rest S L Ch → PC → Prop} {B : Nat}
    (hr : Refines P m okc okm sp err I At B) {p : PC} {j : Nat}
    (hI : ∀ h s' p' a b, Moves m okm (fun _ => sp) t s p h s' p' a b → I t s' p') {q : TPC S L Ch R} (hq : PCRel m err At j q p) {h s' q' a b}
    (hm : Moves P.mach (Program.ok okc) (spurious sp) t s q h s' q' a b) (hb : b = 0) :
    ∃ p' j' a', PCRel m err At j' q' p' ∧ Moves m okm (fun _ => sp) t s p h s' p' a' 0 := by
  induction hm with
  | stay => exact ⟨p, j, 0, hq, .stay⟩
  | @step h s₁ q₁ a b ch s' q' e hm hok hs ih =>
    obtain ⟨rfl, hb'⟩ : b = 0 ∧ (if spurious sp q₁ ch then 1 else 0) = 0 := by omega
    obtain ⟨p₁, j₁, a₁, h1, h2⟩ := ih rfl
    obtain ⟨p', j', a', h3, h4, -⟩ := hr.step Failures.all (hI _ _ _ _ _ h2) h1 hs hok
    rw [hb'] at h4
    exact ⟨p', j', _, h3, h2.trans h4⟩

/-! ### A program as part of a larger one -/

/-- The state of the larger program has a part on which the smaller one works. -/
structure Part (S' S : Type) where
  get : S' → S
  put : S' → S → S'
  get_put : ∀ s x, get (put s x) = x
  put_put : ∀ s x y, put (put s x) y = put s y
  put_get : ∀ s, put s (get s) = s

def Access.on (V : Part S' S) (a : Access S L Ch) : Access S' L Ch where
  run t s l ch := (a.run t (V.get s) l ch).map fun x => (V.put s x.1, x.2.1, x.2.2)
  ok s l ch := a.ok (V.get s) l ch

/-- The statement, executed on a part of the state. -/
def Stm.on (V : Part S' S) : Stm S L Ch → Stm S' L Ch
  | .acc a => .acc (a.on V)
  | .set f => .set f
  | .seq a b => .seq (a.on V) (b.on V)
  | .ite c a b => .ite c (a.on V) (b.on V)
  | .forever a => .forever (a.on V)
  | .brk => .brk
  | .cont => .cont
  | .ret => .ret
  | .fn a => .fn (a.on V)
  | .tryCatch a b => .tryCatch (a.on V) (b.on V)
  | .rethrow => .rethrow

def Item.on (V : Part S' S) : Item S L Ch → Item S' L Ch
  | .stm a => .stm (a.on V)
  | .loop a => .loop (a.on V)
  | .fn => .fn
  | .handler b => .handler (b.on V)

/-- No `break`, `continue`, `return` or exception leaves the statement, given whether it is in a loop, in a function, in a `try` block. -/
def Stm.shut (lp fn h : Bool) : Stm S L Ch → Bool
  | .acc _ | .rethrow => h
  | .set _ => true
  | .seq a b | .ite _ a b => a.shut lp fn h && b.shut lp fn h
  | .forever a => a.shut true fn h
  | .brk | .cont => lp
  | .ret => fn
  | .fn a => a.shut lp true h
  | .tryCatch a b => a.shut lp fn true && b.shut lp fn h

def inLoop : Rest S L Ch → Bool
  | [] => false
  | .loop _ :: _ => true
  | _ :: k => inLoop k

def inFn : Rest S L Ch → Bool
  | [] => false
  | .fn :: _ => true
  | _ :: k => inFn k

def inTry : Rest S L Ch → Bool
  | [] => false
  | .handler _ :: _ => true
  | _ :: k => inTry k

/-- The same for what remains. -/
def shutRest : Rest S L Ch → Bool
  | [] => true
  | .stm a :: k | .handler a :: k => a.shut (inLoop k) (inFn k) (inTry k) && shutRest k
  | .loop a :: k => a.shut true (inFn k) (inTry k) && shutRest k
  | .fn :: k => shutRest k

variable {V : Part S' S} {K : Rest S' L Ch}

theorem afterLoop_on (h : inLoop k = true) : afterLoop (k.map (·.on V) ++ K) = (afterLoop k).map (·.on V) ++ K := by
  induction k with
  | nil => simp [inLoop] at h
  | cons i k ih => cases i <;> first | exact ih h | rfl

theorem toLoop_on (h : inLoop k = true) : toLoop (k.map (·.on V) ++ K) = (toLoop k).map (·.on V) ++ K := by
  induction k with
  | nil => simp [inLoop] at h
  | cons i k ih => cases i <;> first | exact ih h | rfl

theorem afterFn_on (h : inFn k = true) : afterFn (k.map (·.on V) ++ K) = (afterFn k).map (·.on V) ++ K := by
  induction k with
  | nil => simp [inFn] at h
  | cons i k ih => cases i <;> first | exact ih h | rfl

theorem toHandler_on (h : inTry k = true) : toHandler (k.map (·.on V) ++ K) = (toHandler k).map (·.on V) ++ K := by
  induction k with
  | nil => simp [inTry] at h
  | cons i k ih => cases i <;> first | exact ih h | rfl

theorem shut_tail {i : Item S L Ch} (h : shutRest (i :: k) = true) : shutRest k = true := by
  cases i <;> simp [shutRest] at h <;> first | exact h.2 | exact h

theorem shut_afterLoop (h : shutRest k = true) : shutRest (afterLoop k) = true := by
  induction k with
  | nil => rfl
  | cons i k ih => cases i <;> first | exact ih (shut_tail h) | exact shut_tail h

theorem shut_toLoop (h : shutRest k = true) : shutRest (toLoop k) = true := by
  induction k with
  | nil => rfl
  | cons i k ih => cases i <;> first | exact ih (shut_tail h) | exact h

theorem shut_afterFn (h : shutRest k = true) : shutRest (afterFn k) = true := by
  induction k with
  | nil => rfl
  | cons i k ih => cases i <;> first | exact ih (shut_tail h) | exact shut_tail h

theorem shut_toHandler (h : shutRest k = true) : shutRest (toHandler k) = true := by
  induction k with
  | nil => rfl
  | cons i k ih => cases i <;> first | exact ih (shut_tail h) | exact h

theorem ctl_on (h : shutRest k = true) (hc : ctl l k = some (l', k')) : ctl l (k.map (·.on V) ++ K) = some (l', k'.map (·.on V) ++ K) ∧ shutRest k' = true := by
  cases k with
  | nil => simp [Text.ctl] at hc
  | cons i k =>
    cases i with
    | stm x =>
      cases x <;> simp only [Text.ctl, Option.some.injEq, Prod.mk.injEq, reduceCtorEq] at hc <;> obtain ⟨rfl, rfl⟩ := hc <;>
        simp [shutRest, Stm.shut] at h <;> simp [Item.on, Stm.on, ctl]
      case set => exact h
      case seq => simpa [shutRest, inLoop, inFn, inTry, and_assoc] using h
      case ite c a b => cases c l <;> simp [shutRest, *]
      case forever => simpa [shutRest, inLoop, inFn, inTry] using h
      case brk => exact ⟨afterLoop_on h.1, shut_afterLoop h.2⟩
      case cont => exact ⟨toLoop_on h.1, shut_toLoop h.2⟩
      case ret => exact ⟨afterFn_on h.1, shut_afterFn h.2⟩
      case fn => simpa [shutRest, inLoop, inFn, inTry] using h
      case tryCatch => simpa [shutRest, inLoop, inFn, inTry, and_assoc] using h
      case rethrow => exact ⟨toHandler_on h.1, shut_toHandler h.2⟩
    | loop a =>
      simp only [Text.ctl, Option.some.injEq, Prod.mk.injEq] at hc; obtain ⟨rfl, rfl⟩ := hc
      simp [shutRest] at h
      simp [Item.on, ctl, shutRest, inLoop, inFn, inTry, h]
    | fn | handler =>
      simp only [Text.ctl, Option.some.injEq, Prod.mk.injEq] at hc; obtain ⟨rfl, rfl⟩ := hc
      simp [Item.on, ctl, shut_tail h]

/-- The smaller program, followed by `K`. -/
theorem Ends.on {s : S'} {Q' : S' → L → Rest S' L Ch → Prop} (hk : shutRest k = true) (h : Ends t al sp Q n f (V.get s) l k)
    (hQ : ∀ s₁ l₁ k₁ g, g ≤ f → Q s₁ l₁ k₁ → Ends t al sp Q' m g (V.put s s₁) l₁ (k₁.map (·.on V) ++ K)) :
    Ends t al sp Q' (n + m) f s l (k.map (·.on V) ++ K) := by
  generalize hx : V.get s = x at h
  induction h generalizing s with
  | @here n f _ l k h =>
    subst hx
    have := hQ _ l k f (Nat.le_refl _) h
    rw [V.put_get] at this
    exact this.mono (by omega)
  | @step n f _ l k l' k' hc _ ih =>
    obtain ⟨h1, h2⟩ := ctl_on (V := V) (K := K) hk hc
    rw [Nat.add_right_comm]
    exact .step h1 (ih h2 hQ hx)
  | @acc n f x l k a h1 h2 h3 h4 ih3 ih4 =>
    subst hx
    simp [shutRest, Stm.shut] at hk
    rw [Nat.add_right_comm]
    have rest : ∀ w : Flow, w.rest (k.map (·.on V) ++ K) = (w.rest k).map (·.on V) ++ K := by
      intro w; cases w <;> first | rfl | exact toHandler_on hk.1
    have restS : ∀ w : Flow, shutRest (w.rest k) = true := by
      intro w; cases w <;> first | exact hk.2 | exact shut_toHandler hk.2
    have key : ∀ ch s' l' w, (a.on V).run t s l ch = some (s', l', w) → ∃ y, a.run t (V.get s) l ch = some (y, l', w) ∧ s' = V.put s y := by
      intro ch s' l' w hr
      simp only [Access.on, Option.map_eq_some_iff, Prod.mk.injEq, Prod.exists] at hr
      obtain ⟨y, _, _, h5, rfl, rfl, rfl⟩ := hr
      exact ⟨y, h5, rfl⟩
    refine .acc ?_ ?_ ?_ ?_
    · obtain ⟨ch, y, g1, g2, g3, g4⟩ := h1
      exact ⟨ch, _, g1, g2, g3, by simp only [Access.on, g4]; rfl⟩
    · intro ch s' l' ha ho hr
      obtain ⟨y, g1, -⟩ := key _ _ _ _ hr
      exact h2 _ _ _ ha ho g1
    · intro ch s' l' w ha ho hs hr
      obtain ⟨y, g1, rfl⟩ := key _ _ _ _ hr
      refine (rest w).symm ▸ ?_
      refine ih3 ch y l' w ha ho hs g1 (restS w) (fun s₁ l₁ k₁ g hg hq => ?_) (V.get_put _ _)
      rw [V.put_put]
      exact hQ s₁ l₁ k₁ g hg hq
    · intro ch s' l' w g ha ho hs hf hr
      obtain ⟨y, g1, rfl⟩ := key _ _ _ _ hr
      refine (rest w).symm ▸ ?_
      refine ih4 ch y l' w g ha ho hs hf g1 (restS w) (fun s₁ l₁ k₁ g' hg hq => ?_) (V.get_put _ _)
      rw [V.put_put]
      exact hQ s₁ l₁ k₁ g' (by omega) hq

end Verif.Text
