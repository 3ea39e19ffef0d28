import Verif.LockFree
import Verif.Text

/-!
# Executions without end (generic)

No code of /repo is modelled here. Lock-freedom as it is usually defined: in every execution without end infinitely many calls return.
-/

namespace Verif
open Lin

variable {S P Ch O R : Type}

/-- An execution without end: `C n` is the configuration before step `n`, which is made by thread `t n < T`, with choice `ch n` and event
`e n`. -/
structure Forever (m : Mach S P Ch O R) (ok : S → P → Ch → Prop) (T : Nat) (C : Nat → MConf S P) (t : Nat → Nat) (ch : Nat → Ch)
    (e : Nat → Option (Event O R)) : Prop where
  thread : ∀ n, t n < T
  ok : ∀ n, ok (C n).s ((C n).pc (t n)) (ch n)
  step : ∀ n, ∃ p', m.step (t n) (C n).s ((C n).pc (t n)) (ch n) = some ((C (n + 1)).s, p', e n) ∧ (C (n + 1)).pc = upd (C n).pc (t n) p'

/-- The history of the first `n` steps. -/
def firstEvents (e : Nat → Option (Event O R)) : Nat → History O R
  | 0 => []
  | n + 1 => firstEvents e n ++ (e n).toList

variable {m : Mach S P Ch O R} {ok : S → P → Ch → Prop} {spur : P → Ch → Bool} {T : Nat} {C : Nat → MConf S P} {t : Nat → Nat}
  {ch : Nat → Ch} {e : Nat → Option (Event O R)}

/-- The first `n` steps. -/
theorem Forever.counted (hx : Forever m ok T C t ch e) {N : Nat} (hN : ∀ n, N ≤ n → spur ((C n).pc (t n)) (ch n) = false) (n : Nat) :
    ∃ k f, Counted m ok spur T (C 0) (firstEvents e n) (C n) k f ∧ k + f = n ∧ f ≤ N ∧ f ≤ n := by
  induction n with
  | zero => exact ⟨0, 0, .refl, rfl, Nat.zero_le _, Nat.le_refl _⟩
  | succ n ih =>
    obtain ⟨k, f, h1, h2, h3, h4⟩ := ih
    obtain ⟨p', h5, h6⟩ := hx.step n
    have hC : C (n + 1) = ⟨(C (n + 1)).s, upd (C n).pc (t n) p'⟩ := by rw [← h6]
    rw [hC]
    cases hs : spur ((C n).pc (t n)) (ch n) with
    | false => exact ⟨k + 1, f, .step h1 (hx.thread n) h5 (hx.ok n) hs, by omega, h3, by omega⟩
    | true =>
      have : n < N := Nat.lt_of_not_le fun h => by rw [hN n h] at hs; cases hs
      exact ⟨k, f + 1, .fail h1 (hx.thread n) h5 (hx.ok n) hs, by omega, by omega, by omega⟩

theorem firstEvents_mono (cost : O → Nat) {n n' : Nat} (h : n ≤ n') :
    callCosts cost (firstEvents e n) ≤ callCosts cost (firstEvents e n') := by
  induction h with
  | refl => exact Nat.le_refl _
  | step _ ih => simp only [firstEvents, callCosts_append]; omega

theorem firstEvents_same (cost : O → Nat) {n n' : Nat} (h : n ≤ n')
    (hc : callCosts (fun _ => 1) (firstEvents e n') = callCosts (fun _ => 1) (firstEvents e n)) :
    callCosts cost (firstEvents e n') = callCosts cost (firstEvents e n) := by
  induction h with
  | refl => rfl
  | @step n' h ih =>
    have h1 := firstEvents_mono (e := e) (fun _ => 1) h
    simp only [firstEvents, callCosts_append] at hc ⊢
    rw [ih (by omega)]
    have h2 : callCosts (fun _ => 1) (e n').toList = 0 := by omega
    cases he : e n' with
    | none => simp [callCosts]
    | some x => cases x with
      | inv i o => simp [he, callCosts] at h2
      | res i r => simp [callCosts]

/-- Finitely many calls cost only so much. -/
theorem firstEvents_bound (cost : O → Nat) (K : Nat) (hK : ∀ n, callCosts (fun _ => 1) (firstEvents e n) ≤ K) :
    ∃ M, ∀ n, callCosts cost (firstEvents e n) ≤ M := by
  induction K with
  | zero => exact ⟨0, fun n => by
      rw [firstEvents_same cost (Nat.zero_le n) (Nat.le_zero.mp (hK n))]; exact Nat.le_refl _⟩
  | succ K ih =>
    rcases Classical.em (∃ n, callCosts (fun _ => 1) (firstEvents e n) = K + 1) with ⟨n₀, h0⟩ | h
    · refine ⟨callCosts cost (firstEvents e n₀), fun n => ?_⟩
      rcases Nat.le_total n n₀ with h1 | h1
      · exact firstEvents_mono cost h1
      · have := firstEvents_mono (e := e) (fun _ => 1) h1
        exact Nat.le_of_eq (firstEvents_same cost h1 (by have := hK n; omega))
    · exact ih fun n => by
        have := hK n
        have : callCosts (fun _ => 1) (firstEvents e n) ≠ K + 1 := fun h1 => h ⟨n, h1⟩
        omega

theorem returns_bound {N : Nat} (hN : ∀ n, N ≤ n → ∀ i r, e n ≠ some (.res i r)) (n : Nat) : returns (firstEvents e n) ≤ N := by
  have h1 : ∀ n, returns (firstEvents e n) ≤ n := by
    intro n
    induction n with
    | zero => simp [firstEvents, returns]
    | succ n ih =>
      simp only [firstEvents, returns_append]
      cases e n with
      | none => simp [returns]; omega
      | some x => cases x <;> simp [returns] <;> omega
  induction n with
  | zero => exact Nat.le_trans (h1 0) (Nat.zero_le _)
  | succ n ih =>
    rcases Nat.lt_or_ge n N with h | h
    · exact Nat.le_trans (h1 _) h
    · simp only [firstEvents, returns_append]
      cases he : e n with
      | none => simpa [returns] using ih
      | some x => cases x with
        | inv i o => simpa [returns] using ih
        | res i r => exact absurd he (hN n h i r)

/-- If the number of steps is bounded in terms of the calls made, infinitely many calls return. -/
theorem Forever.returns (hx : Forever m ok T C t ch e) {A c : Nat} {cost : O → Nat}
    (hbound : ∀ {h D k f}, Counted m ok spur T (C 0) h D k f → k ≤ A * (callCosts cost h + c * f))
    (hcalls : ∀ {h D k f}, Counted m ok spur T (C 0) h D k f → callCosts (fun _ => 1) h ≤ returns h + T)
    (hspur : ∃ N, ∀ n, N ≤ n → spur ((C n).pc (t n)) (ch n) = false) (n : Nat) :
    ∃ i, n ≤ i ∧ ∃ j r, e i = some (.res j r) := by
  obtain ⟨N, hN⟩ := hspur
  apply Classical.byContradiction
  intro hno
  have h1 : ∀ i, n ≤ i → ∀ j r, e i ≠ some (.res j r) := fun i hi j r he => hno ⟨i, hi, j, r, he⟩
  obtain ⟨M, hM⟩ := firstEvents_bound (e := e) cost (n + T) fun i => by
    obtain ⟨k, f, h2, -⟩ := hx.counted hN i
    have := hcalls h2
    have := returns_bound h1 i
    omega
  obtain ⟨k, f, h2, h3, h4, -⟩ := hx.counted hN (A * (M + c * N) + N + 1)
  have h5 := hbound h2
  have h6 : A * (callCosts cost (firstEvents e (A * (M + c * N) + N + 1)) + c * f) ≤ A * (M + c * N) :=
    Nat.mul_le_mul_left _ (Nat.add_le_add (hM _) (Nat.mul_le_mul_left _ h4))
  omega

/-- If a step can always be made, it can be made forever. -/
theorem forever_of {C₀ : MConf S P} (X : MConf S P → Prop) (Good : MConf S P → Nat → Ch → Option (Event O R) → Prop) (h0 : X C₀)
    (hX : ∀ D, X D → ∃ t ch s' p' e, t < T ∧ ok D.s (D.pc t) ch ∧ m.step t D.s (D.pc t) ch = some (s', p', e) ∧ Good D t ch e ∧
      X ⟨s', upd D.pc t p'⟩) :
    ∃ C t ch e, Forever m ok T C t ch e ∧ C 0 = C₀ ∧ ∀ n, Good (C n) (t n) (ch n) (e n) := by
  let next : {D // X D} → {D // X D} := fun D =>
    ⟨⟨(hX D.1 D.2).choose_spec.choose_spec.choose, upd D.1.pc (hX D.1 D.2).choose (hX D.1 D.2).choose_spec.choose_spec.choose_spec.choose⟩,
      (hX D.1 D.2).choose_spec.choose_spec.choose_spec.choose_spec.choose_spec.2.2.2.2⟩
  let C : Nat → {D // X D} := fun n => n.rec ⟨C₀, h0⟩ fun _ D => next D
  refine ⟨fun n => (C n).1, fun n => (hX (C n).1 (C n).2).choose, fun n => (hX (C n).1 (C n).2).choose_spec.choose,
    fun n => (hX (C n).1 (C n).2).choose_spec.choose_spec.choose_spec.choose_spec.choose,
    ⟨fun n => ?_, fun n => ?_, fun n => ⟨(hX (C n).1 (C n).2).choose_spec.choose_spec.choose_spec.choose, ?_, rfl⟩⟩, rfl, fun n => ?_⟩
  · exact (hX (C n).1 (C n).2).choose_spec.choose_spec.choose_spec.choose_spec.choose_spec.1
  · exact (hX (C n).1 (C n).2).choose_spec.choose_spec.choose_spec.choose_spec.choose_spec.2.1
  · exact (hX (C n).1 (C n).2).choose_spec.choose_spec.choose_spec.choose_spec.choose_spec.2.2.1
  · exact (hX (C n).1 (C n).2).choose_spec.choose_spec.choose_spec.choose_spec.choose_spec.2.2.2.1

/-- One thread makes `n` steps, and then repeats those from step `l` on. -/
theorem forever_lasso {C₀ : MConf S P} {t n l : Nat} (ht : t < T) (hl : l < n) (x : Nat → S × P) (c : Nat → Ch) (ev : Nat → Option (Event O R))
    (h0 : x 0 = (C₀.s, C₀.pc t)) (hn : x n = x l) (hok : ∀ i, i < n → ok (x i).1 (x i).2 (c i))
    (hs : ∀ i, i < n → m.step t (x i).1 (x i).2 (c i) = some ((x (i + 1)).1, (x (i + 1)).2, ev i)) :
    ∃ C t ch e, Forever m ok T C t ch e ∧ C 0 = C₀ ∧ ∀ j, ∃ i, i < n ∧ (C j).pc (t j) = (x i).2 ∧ ch j = c i ∧ e j = ev i := by
  refine forever_of (fun D => ∃ i, i < n ∧ D.s = (x i).1 ∧ D.pc t = (x i).2)
    (fun D u ch e => ∃ i, i < n ∧ D.pc u = (x i).2 ∧ ch = c i ∧ e = ev i) ⟨0, by omega, by rw [h0], by rw [h0]⟩ ?_
  rintro D ⟨i, hi, h1, h2⟩
  refine ⟨t, c i, _, _, ev i, ht, ?_, by rw [h1, h2]; exact hs i hi, ⟨i, hi, h2, rfl, rfl⟩, ?_⟩
  · rw [h1, h2]; exact hok i hi
  · rcases Nat.lt_or_ge (i + 1) n with h3 | h3
    · exact ⟨i + 1, h3, rfl, by simp⟩
    · have : i + 1 = n := by omega
      exact ⟨l, hl, by rw [this, hn], by simp [this, hn]⟩

/-! ### Programs -/

namespace Text
variable {L : Type}

theorem Program.lawful (Q : Program S L Ch O R) : Q.mach.Lawful := by
  intro t s p ch s' p' e hs
  simp only [Program.mach] at hs
  split at hs
  · simp at hs
    obtain ⟨l, a, -, rfl, rfl, rfl⟩ := hs
    exact .inl ⟨rfl, _, rfl⟩
  · simp at hs
  · simp at hs
  · split at hs <;> simp at hs
  · simp at hs
    obtain ⟨rfl, rfl, rfl⟩ := hs
    exact .inr ⟨_, rfl, rfl, rfl⟩
  · simp at hs
  · simp at hs

/-- All but at most `T` of the calls of a program have returned. -/
theorem Program.calls_le (Q : Program S L Ch O R) {ok} {spur : TPC S L Ch R → TChoice Ch O → Bool} {C₀ D : MConf S (TPC S L Ch R)}
    {h : History O R} {k f : Nat} (hx : Counted Q.mach ok spur T C₀ h D k f) : callCosts (fun _ => 1) h ≤ returns h + T := by
  refine hx.calls_le Q.lawful (fun t s p ch s' p' e hs he hpp => ?_) (fun t s p ch s' p' o hs => ?_)
  · simp only [Program.mach] at hs
    split at hs
    · simp at hs; obtain ⟨l, a, -, -, rfl, -⟩ := hs; exact fun h => by cases h
    · simp at hs; obtain ⟨-, rfl, -⟩ := hs; exact fun h => by cases h
    · simp at hs; obtain ⟨l, a, -, -, rfl, -⟩ := hs; exact fun h => by cases h
    · split at hs <;> simp at hs <;> (obtain ⟨-, rfl, -⟩ := hs; exact fun h => by cases h)
    · simp at hs; obtain ⟨-, -, rfl⟩ := hs; exact absurd rfl (he _)
    · simp at hs; obtain ⟨-, rfl, -⟩ := hs; exact absurd rfl hpp
    · simp at hs
  · rcases Q.lawful _ _ _ _ _ _ _ hs with ⟨rfl, -⟩ | ⟨_, _, _, h⟩
    · cases ch with
      | call o => simp [Program.mach] at hs; obtain ⟨l, a, -, -, rfl, -⟩ := hs; exact fun h => by cases h
      | env ch => simp [Program.mach] at hs
      | _ => simp [Program.mach] at hs
    · cases h

end Text
end Verif
