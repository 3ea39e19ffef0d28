import Verif.Forever

/-!
# The steps of one thread among those of others (generic)

No code of /repo is modelled here.
-/

namespace Verif
open Lin

variable {S P Ch O R : Type}

/-- An execution from `C₀` to `C` by threads below `T` with history `h`, in which thread `u` makes `f` steps that are spurious failures and `k` other
steps. -/
inductive Own (m : Mach S P Ch O R) (ok : S → P → Ch → Prop) (spur : P → Ch → Bool) (T u : Nat) (C₀ : MConf S P) :
    History O R → MConf S P → Nat → Nat → Prop where
  | refl : Own m ok spur T u C₀ [] C₀ 0 0
  | step {h C t ch s' p' e k f} : Own m ok spur T u C₀ h C k f → t < T → m.step t C.s (C.pc t) ch = some (s', p', e) → ok C.s (C.pc t) ch →
      Own m ok spur T u C₀ (h ++ e.toList) ⟨s', upd C.pc t p'⟩ (k + if t = u ∧ spur (C.pc t) ch = false then 1 else 0)
        (f + if t = u ∧ spur (C.pc t) ch = true then 1 else 0)

variable {m : Mach S P Ch O R} {ok : S → P → Ch → Prop} {spur : P → Ch → Bool} {T u : Nat} {C₀ : MConf S P}
  {h : History O R} {k f : Nat}

theorem Own.steps {C : MConf S P} (hx : Own m ok spur T u C₀ h C k f) : MSteps m ok C₀ h C := by
  induction hx with
  | refl => exact .refl _
  | step _ _ hs hok ih => exact .step ih hs hok

/-- Steps of a thread. -/
def stepsOf (t : Nat → Nat) (u : Nat) : Nat → Nat
  | 0 => 0
  | n + 1 => stepsOf t u n + if t n = u then 1 else 0

theorem stepsOf_mono {t : Nat → Nat} {n : Nat} : ∀ j, stepsOf t u n ≤ stepsOf t u (n + j)
  | 0 => Nat.le_refl _
  | j + 1 => Nat.le_trans (stepsOf_mono j) (Nat.le_add_right _ _)

/-- A thread that goes on making steps makes any number of them. -/
theorem stepsOf_unbounded {t : Nat → Nat} (h : ∀ n, ∃ j, n ≤ j ∧ t j = u) (b : Nat) : ∃ n, b ≤ stepsOf t u n := by
  induction b with
  | zero => exact ⟨0, Nat.zero_le _⟩
  | succ b ih =>
    obtain ⟨n, hn⟩ := ih
    obtain ⟨j, h1, h2⟩ := h n
    obtain ⟨d, rfl⟩ : ∃ d, j = n + d := ⟨j - n, by omega⟩
    have := stepsOf_mono (t := t) (u := u) (n := n) d
    exact ⟨n + d + 1, by simp only [stepsOf, h2, if_true]; omega⟩

section
variable {C : Nat → MConf S P} {t : Nat → Nat} {ch : Nat → Ch} {e : Nat → Option (Event O R)}

/-- The first `n` steps. -/
theorem Forever.own (hx : Forever m ok T C t ch e) {N : Nat} (hN : ∀ n, N ≤ n → spur ((C n).pc (t n)) (ch n) = false) (u n : Nat) :
    ∃ k f, Own m ok spur T u (C 0) (firstEvents e n) (C n) k f ∧ k + f = stepsOf t u n ∧ f ≤ N ∧ f ≤ n := by
  induction n with
  | zero => exact ⟨0, 0, .refl, rfl, Nat.zero_le _, Nat.le_refl _⟩
  | succ n ih =>
    obtain ⟨k, f, h1, h2, h3, h4⟩ := ih
    obtain ⟨p', h5, h6⟩ := hx.step n
    have hC : C (n + 1) = ⟨(C (n + 1)).s, upd (C n).pc (t n) p'⟩ := by rw [← h6]
    rw [hC]
    refine ⟨_, _, .step h1 (hx.thread n) h5 (hx.ok n), ?_, ?_, ?_⟩
    · simp only [stepsOf]
      cases spur ((C n).pc (t n)) (ch n) <;> by_cases htu : t n = u <;> simp [htu] <;> omega
    · cases hs : spur ((C n).pc (t n)) (ch n)
      · simp; omega
      · have : n < N := Nat.lt_of_not_le fun h => by rw [hN n h] at hs; cases hs
        by_cases htu : t n = u <;> simp [htu] <;> omega
    · split <;> omega
end

section
variable {e : Nat → Option (Event O R)}

theorem countP_bound {q : Event O R → Bool} {N : Nat} (hN : ∀ i, N ≤ i → ∀ ev, e i = some ev → q ev = false) (i : Nat) :
    (firstEvents e i).countP q ≤ N := by
  suffices hh : (firstEvents e i).countP q ≤ min i N by omega
  induction i with
  | zero => simp [firstEvents]
  | succ i ih =>
    simp only [firstEvents, List.countP_append]
    cases he : e i with
    | none => simp; omega
    | some ev =>
      by_cases hi : N ≤ i
      · simp [hN i hi ev he]; omega
      · have : [ev].countP q ≤ 1 := List.countP_le_length
        simp only [Option.toList]; omega

theorem mem_firstEvents {ev : Event O R} : ∀ {i : Nat}, ev ∈ firstEvents e i → ∃ j, e j = some ev
  | 0, h => by simp [firstEvents] at h
  | i + 1, h => by
    simp only [firstEvents, List.mem_append] at h
    rcases h with h | h
    · exact mem_firstEvents h
    · exact ⟨i, by cases he : e i <;> simp [he] at h; rw [h]⟩

/-- A bounded number of events of a kind: from some time on there is none. -/
theorem eventually_none {q : Event O R → Bool} {B : Nat} (hB : ∀ i, (firstEvents e i).countP q ≤ B) :
    ∃ N, ∀ i, N ≤ i → ∀ ev, e i = some ev → q ev = false := by
  apply Classical.byContradiction
  intro hno
  have h1 : ∀ N, ∃ i, N ≤ i ∧ ∃ ev, e i = some ev ∧ q ev = true := by
    intro N
    apply Classical.byContradiction
    intro h
    exact hno ⟨N, fun i hi ev he => Bool.eq_false_iff.2 fun hq => h ⟨i, hi, ev, he, hq⟩⟩
  have hmono : ∀ i d, (firstEvents e i).countP q ≤ (firstEvents e (i + d)).countP q := by
    intro i d
    induction d with
    | zero => exact Nat.le_refl _
    | succ d ih => rw [← Nat.add_assoc]; simp only [firstEvents, List.countP_append]; omega
  have h2 : ∀ b, ∃ i, b ≤ (firstEvents e i).countP q := by
    intro b
    induction b with
    | zero => exact ⟨0, Nat.zero_le _⟩
    | succ b ih =>
      obtain ⟨i, h2⟩ := ih
      obtain ⟨j, h3, ev, h4, h5⟩ := h1 i
      refine ⟨j + 1, ?_⟩
      have h6 := hmono i (j - i)
      rw [show i + (j - i) = j by omega] at h6
      simp only [firstEvents, List.countP_append, h4, Option.toList, List.countP_cons, List.countP_nil, h5, if_true]
      omega
  obtain ⟨i, h3⟩ := h2 (B + 1)
  have := hB i
  omega
end

end Verif

namespace Verif.Text
open Lin

variable {S L Ch O R : Type} {P : Program S L Ch O R} {PC : Type} {m : Mach S PC Ch O R} {okCall : S → O → Prop} {okm : S → PC → Ch → Prop}
  {sp : Ch → Bool} {err : PC} {I : Nat → S → PC → Prop} {At : L → Rest S L Ch → PC → Prop} {B : Nat} {sw : PC → Ch → Bool}
  {st : TPC S L Ch R → TChoice Ch O → Bool}

theorem Moves.own {t s p h s' p' a b} (hm : Moves m okm sw t s p h s' p' a b) {T u C₀ h₀ k f} {D : MConf S PC} (ht : t < T) (hs : D.s = s)
    (hp : D.pc t = p) (hx : Own m okm sw T u C₀ h₀ D k f) :
    Own m okm sw T u C₀ (h₀ ++ h) ⟨s', upd D.pc t p'⟩ (k + if t = u then a else 0) (f + if t = u then b else 0) := by
  obtain ⟨_, pc⟩ := D
  cases (show _ = s from hs)
  cases (show pc t = p from hp)
  induction hm with
  | stay => simpa [upd_eq_self] using hx
  | @step h s₁ p₁ a b ch s' p' e _ hok hs ih =>
    have hs : m.step t s₁ (upd pc t p₁ t) ch = some (s', p', e) := by rw [upd_self]; exact hs
    have hok : okm s₁ (upd pc t p₁ t) ch := by rw [upd_self]; exact hok
    have h1 := Own.step ih ht hs hok
    simp only [upd_self, upd_upd] at h1
    rw [← List.append_assoc]
    by_cases htu : t = u
    · cases hc : sw p₁ ch <;> simpa [hc, htu, Nat.add_assoc] using h1
    · simpa [htu] using h1

/-- The steps of one thread of the program and of the machine. -/
theorem Refines.own (hr : Refines P m okCall okm sp err I At B) (hS : Failures P sp At st sw) {s₀ : S}
    (hI : ∀ h D, MSteps m okm ⟨s₀, fun _ => m.idle⟩ h D → ∀ t, I t D.s (D.pc t)) {T u h C₁ k f}
    (hx : Own P.mach (Program.ok okCall) st T u ⟨s₀, fun _ => .idle⟩ h C₁ k f) :
    ∃ (D : MConf S PC) (k' : Nat), Own m okm sw T u ⟨s₀, fun _ => m.idle⟩ h D k' f ∧ D.s = C₁.s ∧
      (∀ t, ∃ n, PCRel m err At n (C₁.pc t) (D.pc t)) ∧ ∃ r, PCRel m err At r (C₁.pc u) (D.pc u) ∧ k + r ≤ (B + 2) * (k' + f) := by
  induction hx with
  | refl => exact ⟨_, 0, .refl, rfl, fun _ => ⟨0, rfl⟩, 0, rfl, by simp⟩
  | @step h C₁ t ch s' p' e k f _ ht hs hok ih =>
    obtain ⟨D, k', h1, h2, h3, r, h4, h5⟩ := ih
    by_cases htu : t = u
    · subst htu
      obtain ⟨p₁, n', a, h6, h7, h8, -⟩ := hr.step hS (h2 ▸ hI _ _ h1.steps t) h4 hs hok
      have h9 := h7.own ht h2 rfl h1
      simp only [if_true] at h9
      have hb : (if t = t ∧ st (C₁.pc t) ch = true then 1 else 0) = if st (C₁.pc t) ch then 1 else 0 := by simp
      have hk : (if t = t ∧ st (C₁.pc t) ch = false then 1 else 0) ≤ 1 := by split <;> omega
      rw [hb]
      refine ⟨_, _, h9, rfl, fun v => ?_, n', by simpa using h6, ?_⟩
      · by_cases hv : v = t
        · subst hv; exact ⟨n', by simpa using h6⟩
        · simpa [upd_ne _ _ _ hv] using h3 v
      · generalize (if st (C₁.pc t) ch then 1 else 0) = x at h8 ⊢
        rw [show k' + a + (f + x) = (k' + f) + (a + x) by omega, Nat.mul_add]
        omega
    · obtain ⟨n, h3'⟩ := h3 t
      obtain ⟨p₁, n', a, h6, h7, h8, -⟩ := hr.step hS (h2 ▸ hI _ _ h1.steps t) h3' hs hok
      have h9 := h7.own ht h2 rfl h1
      simp only [htu, if_false, Nat.add_zero] at h9
      simp only [htu, false_and, if_false, Nat.add_zero]
      refine ⟨_, k', h9, rfl, fun v => ?_, r, by simpa [upd_ne _ _ _ (Ne.symm htu)] using h4, h5⟩
      by_cases hv : v = t
      · subst hv; exact ⟨n', by simpa using h6⟩
      · simpa [upd_ne _ _ _ hv] using h3 v

end Verif.Text
