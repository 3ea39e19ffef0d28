import Verif.UserSince

/-!
# Programs that use two containers

`both` has the states of two machines; a thread that is in no call may begin a call of either. No code of /repo is modelled here.
-/

namespace Verif.Both
open Lin

variable {S₁ P₁ C₁ O₁ R₁ S₂ P₂ C₂ O₂ R₂ : Type}

/-- In no call, in a call of the first container, or in a call of the second. -/
inductive PC (P₁ P₂ : Type) where
  | idle
  | left (p : P₁)
  | right (p : P₂)

/-- Events of the first container. -/
def lefts (h : History (O₁ ⊕ O₂) (R₁ ⊕ R₂)) : History O₁ R₁ := h.filterMap fun
  | .inv t (.inl o) => some (.inv t o)
  | .res t (.inl r) => some (.res t r)
  | _ => none

/-- Events of the second container. -/
def rights (h : History (O₁ ⊕ O₂) (R₁ ⊕ R₂)) : History O₂ R₂ := h.filterMap fun
  | .inv t (.inr o) => some (.inv t o)
  | .res t (.inr r) => some (.res t r)
  | _ => none

/-- The machine of both. A call ends with its response. -/
def both (m₁ : Mach S₁ P₁ C₁ O₁ R₁) (m₂ : Mach S₂ P₂ C₂ O₂ R₂) : Mach (S₁ × S₂) (PC P₁ P₂) (C₁ ⊕ C₂) (O₁ ⊕ O₂) (R₁ ⊕ R₂) where
  step t s
    | .idle, .inl ch =>
      match m₁.step t s.1 m₁.idle ch with
      | some (s', p', some (.inv u o)) => some ((s', s.2), .left p', some (.inv u (.inl o)))
      | _ => none
    | .idle, .inr ch =>
      match m₂.step t s.2 m₂.idle ch with
      | some (s', p', some (.inv u o)) => some ((s.1, s'), .right p', some (.inv u (.inr o)))
      | _ => none
    | .left p, .inl ch =>
      match m₁.step t s.1 p ch with
      | some (s', p', none) => some ((s', s.2), .left p', none)
      | some (s', _, some (.res u r)) => some ((s', s.2), .idle, some (.res u (.inl r)))
      | _ => none
    | .right p, .inr ch =>
      match m₂.step t s.2 p ch with
      | some (s', p', none) => some ((s.1, s'), .right p', none)
      | some (s', _, some (.res u r)) => some ((s.1, s'), .idle, some (.res u (.inr r)))
      | _ => none
    | _, _ => none
  idle := .idle
  ret _ := .idle

/-- Steps of the containers satisfy `ok₁`, `ok₂`. -/
def okBoth (m₁ : Mach S₁ P₁ C₁ O₁ R₁) (m₂ : Mach S₂ P₂ C₂ O₂ R₂) (ok₁ : S₁ → P₁ → C₁ → Prop) (ok₂ : S₂ → P₂ → C₂ → Prop) (s : S₁ × S₂) :
    PC P₁ P₂ → C₁ ⊕ C₂ → Prop
  | .idle, .inl ch => ok₁ s.1 m₁.idle ch
  | .idle, .inr ch => ok₂ s.2 m₂.idle ch
  | .left p, .inl ch => ok₁ s.1 p ch
  | .right p, .inr ch => ok₂ s.2 p ch
  | _, _ => True

/-- What is assumed about a container: a call ends with its response, which is an event of the thread, as is an invocation. -/
structure Ends {S P Ch O R : Type} (m : Mach S P Ch O R) : Prop where
  res : ∀ t s p ch s' p' u r, m.step t s p ch = some (s', p', some (.res u r)) → u = t ∧ p' = m.idle
  inv : ∀ t s p ch s' p' u o, m.step t s p ch = some (s', p', some (.inv u o)) → u = t

/-- PC in the first container. -/
def pcL (m₁ : Mach S₁ P₁ C₁ O₁ R₁) : PC P₁ P₂ → P₁
  | .left p => p
  | _ => m₁.idle

/-- PC in the second container. -/
def pcR (m₂ : Mach S₂ P₂ C₂ O₂ R₂) : PC P₁ P₂ → P₂
  | .right p => p
  | _ => m₂.idle

def confL (m₁ : Mach S₁ P₁ C₁ O₁ R₁) (C : MConf (S₁ × S₂) (PC P₁ P₂)) : MConf S₁ P₁ := ⟨C.s.1, fun t => pcL m₁ (C.pc t)⟩
def confR (m₂ : Mach S₂ P₂ C₂ O₂ R₂) (C : MConf (S₁ × S₂) (PC P₁ P₂)) : MConf S₂ P₂ := ⟨C.s.2, fun t => pcR m₂ (C.pc t)⟩

/-- Steps, as a relation. -/
inductive Trans (m₁ : Mach S₁ P₁ C₁ O₁ R₁) (m₂ : Mach S₂ P₂ C₂ O₂ R₂) (t : Nat) (s₁ : S₁) (s₂ : S₂) :
    PC P₁ P₂ → C₁ ⊕ C₂ → S₁ → S₂ → PC P₁ P₂ → Option (Event (O₁ ⊕ O₂) (R₁ ⊕ R₂)) → Prop where
  | callL {ch s' p' u o} : m₁.step t s₁ m₁.idle ch = some (s', p', some (.inv u o)) →
      Trans m₁ m₂ t s₁ s₂ .idle (.inl ch) s' s₂ (.left p') (some (.inv u (.inl o)))
  | callR {ch s' p' u o} : m₂.step t s₂ m₂.idle ch = some (s', p', some (.inv u o)) →
      Trans m₁ m₂ t s₁ s₂ .idle (.inr ch) s₁ s' (.right p') (some (.inv u (.inr o)))
  | stepL {p ch s' p'} : m₁.step t s₁ p ch = some (s', p', none) → Trans m₁ m₂ t s₁ s₂ (.left p) (.inl ch) s' s₂ (.left p') none
  | stepR {p ch s' p'} : m₂.step t s₂ p ch = some (s', p', none) → Trans m₁ m₂ t s₁ s₂ (.right p) (.inr ch) s₁ s' (.right p') none
  | resL {p ch s' p' u r} : m₁.step t s₁ p ch = some (s', p', some (.res u r)) →
      Trans m₁ m₂ t s₁ s₂ (.left p) (.inl ch) s' s₂ .idle (some (.res u (.inl r)))
  | resR {p ch s' p' u r} : m₂.step t s₂ p ch = some (s', p', some (.res u r)) →
      Trans m₁ m₂ t s₁ s₂ (.right p) (.inr ch) s₁ s' .idle (some (.res u (.inr r)))

variable {m₁ : Mach S₁ P₁ C₁ O₁ R₁} {m₂ : Mach S₂ P₂ C₂ O₂ R₂} {ok₁ : S₁ → P₁ → C₁ → Prop} {ok₂ : S₂ → P₂ → C₂ → Prop}
  {h : History (O₁ ⊕ O₂) (R₁ ⊕ R₂)} {C C' : MConf (S₁ × S₂) (PC P₁ P₂)}

theorem trans_of_step {t : Nat} {s s' : S₁ × S₂} {p p' ch e} (hs : (both m₁ m₂).step t s p ch = some (s', p', e)) :
    Trans m₁ m₂ t s.1 s.2 p ch s'.1 s'.2 p' e := by
  simp only [both] at hs
  split at hs
  · split at hs
    · cases hs; exact .callL ‹_›
    · cases hs
  · split at hs
    · cases hs; exact .callR ‹_›
    · cases hs
  · split at hs
    · cases hs; exact .stepL ‹_›
    · cases hs; exact .resL ‹_›
    · cases hs
  · split at hs
    · cases hs; exact .stepR ‹_›
    · cases hs; exact .resR ‹_›
    · cases hs
  · cases hs

theorem lefts_append (h h' : History (O₁ ⊕ O₂) (R₁ ⊕ R₂)) : lefts (h ++ h') = lefts h ++ lefts h' := by simp [lefts]
theorem rights_append (h h' : History (O₁ ⊕ O₂) (R₁ ⊕ R₂)) : rights (h ++ h') = rights h ++ rights h' := by simp [rights]

theorem confL_upd (C : MConf (S₁ × S₂) (PC P₁ P₂)) (t : Nat) (s' : S₁ × S₂) (p' : PC P₁ P₂) :
    confL m₁ ⟨s', upd C.pc t p'⟩ = ⟨s'.1, upd (confL m₁ C).pc t (pcL m₁ p')⟩ := by
  simp only [confL]
  congr 1
  funext u
  simp only [upd_apply]
  split <;> rfl

theorem confR_upd (C : MConf (S₁ × S₂) (PC P₁ P₂)) (t : Nat) (s' : S₁ × S₂) (p' : PC P₁ P₂) :
    confR m₂ ⟨s', upd C.pc t p'⟩ = ⟨s'.2, upd (confR m₂ C).pc t (pcR m₂ p')⟩ := by
  simp only [confR]
  congr 1
  funext u
  simp only [upd_apply]
  split <;> rfl

/-- **An execution of both is an execution of the first.** -/
theorem steps_left (he : Ends m₁) (hx : MSteps (both m₁ m₂) (okBoth m₁ m₂ ok₁ ok₂) C h C') : MSteps m₁ ok₁ (confL m₁ C) (lefts h) (confL m₁ C') := by
  induction hx with
  | refl => exact .refl _
  | @step h C' t ch s' p' e hx hs hok ih =>
    have hs' := trans_of_step hs
    rw [lefts_append, confL_upd]
    have hpc : (confL m₁ C').pc t = pcL m₁ (C'.pc t) := rfl
    have hss : (confL m₁ C').s = C'.s.1 := rfl
    generalize C'.pc t = p at hs' hok hpc
    have same : ∀ {q : PC P₁ P₂}, pcL m₁ q = pcL m₁ p → s'.1 = C'.s.1 → MSteps m₁ ok₁ (confL m₁ C) (lefts h ++ []) ⟨s'.1, upd (confL m₁ C').pc t (pcL m₁ q)⟩ := by
      intro q h1 h2
      rw [h1, ← hpc, upd_eq_self, h2, List.append_nil]
      exact ih
    obtain ⟨a, b⟩ := s'
    simp only at hs' same ⊢
    cases hs' with
    | callL h1 => exact .step (e := some (.inv _ _)) ih (by rw [hss, hpc]; exact h1) (by rw [hss, hpc]; exact hok)
    | callR h1 => exact same rfl rfl
    | stepL h1 => exact .step (e := none) ih (by rw [hss, hpc]; exact h1) (by rw [hss, hpc]; exact hok)
    | stepR h1 => exact same rfl rfl
    | resL h1 =>
      have h2 := (he.res _ _ _ _ _ _ _ _ h1).2
      subst h2
      exact .step (e := some (.res _ _)) ih (by rw [hss, hpc]; exact h1) (by rw [hss, hpc]; exact hok)
    | resR h1 => exact same rfl rfl

/-- **An execution of both is an execution of the second.** -/
theorem steps_right (he : Ends m₂) (hx : MSteps (both m₁ m₂) (okBoth m₁ m₂ ok₁ ok₂) C h C') : MSteps m₂ ok₂ (confR m₂ C) (rights h) (confR m₂ C') := by
  induction hx with
  | refl => exact .refl _
  | @step h C' t ch s' p' e hx hs hok ih =>
    have hs' := trans_of_step hs
    rw [rights_append, confR_upd]
    have hpc : (confR m₂ C').pc t = pcR m₂ (C'.pc t) := rfl
    have hss : (confR m₂ C').s = C'.s.2 := rfl
    generalize C'.pc t = p at hs' hok hpc
    have same : ∀ {q : PC P₁ P₂}, pcR m₂ q = pcR m₂ p → s'.2 = C'.s.2 → MSteps m₂ ok₂ (confR m₂ C) (rights h ++ []) ⟨s'.2, upd (confR m₂ C').pc t (pcR m₂ q)⟩ := by
      intro q h1 h2
      rw [h1, ← hpc, upd_eq_self, h2, List.append_nil]
      exact ih
    obtain ⟨a, b⟩ := s'
    simp only at hs' same ⊢
    cases hs' with
    | callR h1 => exact .step (e := some (.inv _ _)) ih (by rw [hss, hpc]; exact h1) (by rw [hss, hpc]; exact hok)
    | callL h1 => exact same rfl rfl
    | stepR h1 => exact .step (e := none) ih (by rw [hss, hpc]; exact h1) (by rw [hss, hpc]; exact hok)
    | stepL h1 => exact same rfl rfl
    | resR h1 =>
      have h2 := (he.res _ _ _ _ _ _ _ _ h1).2
      subst h2
      exact .step (e := some (.res _ _)) ih (by rw [hss, hpc]; exact h1) (by rw [hss, hpc]; exact hok)
    | resL h1 => exact same rfl rfl

theorem text_ends {S L Ch O R : Type} (p : Text.Program S L Ch O R) : Ends p.mach := by
  have key : ∀ t s (q : Text.TPC S L Ch R) ch s' p' e, p.mach.step t s q ch = some (s', p', some e) →
      (∃ o, e = .inv t o) ∨ ∃ r, e = .res t r ∧ p' = p.mach.idle := by
    intro t s q ch s' p' e hs
    by_cases hq : q = .idle
    · subst hq
      simp only [Text.Program.mach] at hs
      split at hs
      · simp only [Option.map_eq_some_iff] at hs
        obtain ⟨y, _, hs⟩ := hs
        cases hs
        exact .inl ⟨_, rfl⟩
      all_goals simp_all
    · rcases Example.text_step p (q := q) hq hs with ⟨h, _⟩ | ⟨r, h, h2⟩
      · cases h
      · cases h; exact .inr ⟨r, rfl, h2⟩
  constructor
  · intro t s q ch s' p' u r hs
    rcases key _ _ _ _ _ _ _ hs with ⟨o, h⟩ | ⟨r', h, h2⟩
    · cases h
    · cases h; exact ⟨rfl, h2⟩
  · intro t s q ch s' p' u r hs
    rcases key _ _ _ _ _ _ _ hs with ⟨o, h⟩ | ⟨r', h, h2⟩
    · cases h; rfl
    · cases h

/-! ### Calls of one of the containers -/

/-- `f t` is the call that thread `t` is in. -/
structure Calling {O R : Type} (b : History O R) (f : Nat → Option O) : Prop where
  busy : ∀ t o, f t = some o → ∃ i, Pending b t i o
  rest : ∀ t, f t = none → ∀ i o, ¬ Pending b t i o
  split : ∀ (i t : Nat) (o : O), b[i]? = some (.inv t o) → Pending b t i o ∨ ∃ j r, Returned b i j r

section
variable {O R : Type} {b : History O R} {f : Nat → Option O}

theorem Calling.nil : Calling ([] : History O R) fun _ => none :=
  ⟨nofun, fun t _ i o hp => by have := hp.1; simp at this, fun i t o h => by simp at h⟩

theorem Calling.who (hc : Calling b f) {t i : Nat} {o : O} (hp : Pending b t i o) : f t = some o := by
  cases h : f t with
  | none => exact absurd hp (hc.rest t h _ _)
  | some o' =>
    obtain ⟨i', h'⟩ := hc.busy t o' h
    rw [(hp.unique h').2]

theorem Calling.inv (hc : Calling b f) {t : Nat} (ht : f t = none) (o : O) : Calling (b ++ [.inv t o]) (upd f t (some o)) := by
  refine ⟨fun u o' hu => ?_, fun u hu i o' hp => ?_, fun i u o' hio => ?_⟩
  · by_cases hut : u = t
    · subst hut
      simp only [upd_self, Option.some.injEq] at hu
      subst hu
      exact ⟨_, User.pending_snoc_inv⟩
    · simp only [upd_ne _ _ _ hut] at hu
      obtain ⟨i, h⟩ := hc.busy u o' hu
      exact ⟨i, h.snoc_ne (by simp [Event.tid, Ne.symm hut])⟩
  · by_cases hut : u = t
    · subst hut; simp at hu
    · simp only [upd_ne _ _ _ hut] at hu
      exact hc.rest u hu _ _ (User.pending_unsnoc hp (by simp [Event.tid, Ne.symm hut]))
  · rw [getElem?_snoc] at hio
    split at hio
    · rcases hc.split i u o' hio with h2 | ⟨j, r, h2⟩
      · refine .inl (h2.snoc_ne ?_)
        simp only [Event.tid]
        rintro rfl
        exact hc.rest _ ht _ _ h2
      · exact .inr ⟨j, r, h2.snoc⟩
    · split at hio
      · rename_i hl
        subst hl
        cases hio
        exact .inl User.pending_snoc_inv
      · cases hio

theorem Calling.res (hc : Calling b f) {t : Nat} {o : O} (ht : f t = some o) (r : R) : Calling (b ++ [.res t r]) (upd f t none) := by
  obtain ⟨i, hpe⟩ := hc.busy t o ht
  refine ⟨fun u o' hu => ?_, fun u hu i o' hp => ?_, fun i u o' hio => ?_⟩
  · by_cases hut : u = t
    · subst hut; simp at hu
    · simp only [upd_ne _ _ _ hut] at hu
      obtain ⟨i, h⟩ := hc.busy u o' hu
      exact ⟨i, h.snoc_ne (by simp [Event.tid, Ne.symm hut])⟩
  · by_cases hut : u = t
    · subst hut
      have := (User.pending_snoc_eq hp rfl).2
      cases this
    · simp only [upd_ne _ _ _ hut] at hu
      exact hc.rest u hu _ _ (User.pending_unsnoc hp (by simp [Event.tid, Ne.symm hut]))
  · rw [getElem?_snoc] at hio
    split at hio
    · rcases hc.split i u o' hio with h2 | ⟨j, r', h2⟩
      · by_cases hut : u = t
        · subst hut
          obtain ⟨rfl, rfl⟩ := hpe.unique h2
          exact .inr ⟨_, _, hpe.returned _⟩
        · exact .inl (h2.snoc_ne (by simp [Event.tid, Ne.symm hut]))
      · exact .inr ⟨j, r', h2.snoc⟩
    · split at hio <;> cases hio

end

end Verif.Both
