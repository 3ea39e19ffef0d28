import Verif.Example
import Verif.Forever
import Verif.Threads

/-!
# The example programs: executions without end

No further code is modelled here. What an execution without end of a program of Example.lean looks like between two of its configurations.
-/

namespace Verif.Example
open Lin

variable {S P Ch O R : Type}

/-- A thread can make a step. -/
def Able (m : Mach S P Ch O R) (x : Setup Ch R) (ok : S → P → Ch → Prop) (C : MConf (S × Vars) (PC P)) (u : Nat) : Prop :=
  ∃ ch y, okBy m x ok C.s (C.pc u) ch ∧ (mach m x).step u C.s (C.pc u) ch = some y

/-- The events of steps `n, .., n + k - 1`. -/
def between (e : Nat → Option (Event O R)) (n : Nat) : Nat → History O R
  | 0 => []
  | k + 1 => between e n k ++ (e (n + k)).toList

variable {m : Mach S P Ch O R} {x : Setup Ch R} {ok : S → P → Ch → Prop} {T : Nat} {C : Nat → MConf (S × Vars) (PC P)}
  {t : Nat → Nat} {ch : Nat → Choice Ch} {e : Nat → Option (Event O R)} {s₀ : S} {n k u : Nat}

theorem between_add (n : Nat) : ∀ a b, between e n (a + b) = between e n a ++ between e (n + a) b
  | a, 0 => by simp [between]
  | a, b + 1 => by
    rw [← Nat.add_assoc]
    simp only [between]
    rw [between_add n a b, List.append_assoc, Nat.add_assoc]

/-- The first `n` steps. -/
theorem forever_runs (hx : Forever (mach m x) (okBy m x ok) T C t ch e) (h0 : C 0 = initial x s₀) : ∀ n, Runs m x ok s₀ (firstEvents e n) (C n)
  | 0 => by rw [h0]; exact .refl _
  | n + 1 => by
    obtain ⟨p', h1, h2⟩ := hx.step n
    have hC : C (n + 1) = ⟨(C (n + 1)).s, upd (C n).pc (t n) p'⟩ := by rw [← h2]
    rw [hC]
    exact .step (forever_runs hx h0 n) h1 (hx.ok n)

/-- Step `n`, as a relation. -/
theorem forever_trans (hx : Forever (mach m x) (okBy m x ok) T C t ch e) (n : Nat) :
    Trans m x (t n) (C n).s.1 (C n).s.2 ((C n).pc (t n)) (ch n) (C (n + 1)).s.1 (C (n + 1)).s.2 ((C (n + 1)).pc (t n)) (e n) := by
  obtain ⟨p', h1, h2⟩ := hx.step n
  rw [h2, upd_self]
  exact trans_of_step h1

theorem forever_other (hx : Forever (mach m x) (okBy m x ok) T C t ch e) (h : t n ≠ u) : (C (n + 1)).pc u = (C n).pc u := by
  obtain ⟨p', h1, h2⟩ := hx.step n
  rw [h2, upd_ne _ _ _ (Ne.symm h)]

/-- While a thread makes no step it stays where it is. -/
theorem forever_stays (hx : Forever (mach m x) (okBy m x ok) T C t ch e) {n : Nat} : ∀ {j : Nat}, (∀ i, n ≤ i → i < n + j → t i ≠ u) →
    (C (n + j)).pc u = (C n).pc u
  | 0, _ => rfl
  | j + 1, h => by
    rw [← Nat.add_assoc, forever_other hx (h (n + j) (by omega) (by omega))]
    exact forever_stays hx fun i h1 h2 => h i h1 (by omega)

/-- A thread that can make a step as long as it makes none, makes one. -/
theorem forever_acts (hx : Forever (mach m x) (okBy m x ok) T C t ch e) (hf : ∀ n, ∃ m', n ≤ m' ∧ (t m' = u ∨ ¬ Able m x ok (C m') u)) {n : Nat}
    (ha : ∀ j, (C (n + j)).pc u = (C n).pc u → Able m x ok (C (n + j)) u) :
    ∃ j, t (n + j) = u ∧ (C (n + j)).pc u = (C n).pc u ∧ ∀ i, n ≤ i → i < n + j → t i ≠ u := by
  have h1 : ∃ j, t (n + j) = u := by
    apply Classical.byContradiction
    intro hno
    have h2 : ∀ i, n ≤ i → t i ≠ u := fun i hi h => hno ⟨i - n, by rwa [show n + (i - n) = i by omega]⟩
    obtain ⟨i, h3, h4⟩ := hf n
    obtain ⟨j, rfl⟩ : ∃ j, i = n + j := ⟨i - n, by omega⟩
    rcases h4 with h4 | h4
    · exact h2 _ h3 h4
    · exact h4 (ha j (forever_stays hx fun i h _ => h2 i h))
  have h2 : ∀ b, ∀ j ≤ b, t (n + j) = u → ∃ j, t (n + j) = u ∧ ∀ i, n ≤ i → i < n + j → t i ≠ u := by
    intro b
    induction b with
    | zero =>
      intro j hj h
      exact ⟨j, h, fun i h1 h2 => by omega⟩
    | succ b ih =>
      intro j hj h
      by_cases h3 : ∃ j', j' ≤ b ∧ t (n + j') = u
      · obtain ⟨j', h4, h5⟩ := h3
        exact ih j' h4 h5
      · refine ⟨j, h, fun i h1 h2 h4 => h3 ⟨i - n, by omega, by rwa [show n + (i - n) = i by omega]⟩⟩
  obtain ⟨j, h1⟩ := h1
  obtain ⟨j, h3, h4⟩ := h2 j j (Nat.le_refl _) h1
  exact ⟨j, h3, forever_stays hx h4, h4⟩

/-- A part of the execution, on the container. -/
theorem forever_base (hpl : Plays m x ok) (hx : Forever (mach m x) (okBy m x ok) T C t ch e) (h0 : C 0 = initial x s₀) (n : Nat) :
    ∀ k, MSteps m ok (Mach.baseOf m (C n)) (between e n k) (Mach.baseOf m (C (n + k)))
  | 0 => .refl _
  | k + 1 => by
    obtain ⟨p', h1, h2⟩ := hx.step (n + k)
    have hC : C (n + k + 1) = ⟨(C (n + k + 1)).s, upd (C (n + k)).pc (t (n + k)) p'⟩ := by rw [← h2]
    have := base_step hpl (call_busy hpl (forever_runs hx h0 (n + k))) h1 (hx.ok _)
    rw [← hC] at this
    exact (forever_base hpl hx h0 n k).trans this

/-- Events are those of the thread that makes the step. -/
theorem forever_event (hpl : Plays m x ok) (hx : Forever (mach m x) (okBy m x ok) T C t ch e) (h0 : C 0 = initial x s₀) {n : Nat} {ev}
    (h : e n = some ev) : ev.tid = t n := by
  have h1 := forever_trans hx n
  have hb := call_busy hpl (forever_runs hx h0 n) (t n)
  generalize (C n).pc (t n) = p at h1 hb
  generalize (C (n + 1)).pc (t n) = p' at h1
  generalize (C (n + 1)).s.1 = s' at h1
  generalize (C (n + 1)).s.2 = g' at h1
  generalize ch n = c at h1
  rw [h] at h1
  generalize he : some ev = e at h1
  cases h1 with
  | push h2 => obtain ⟨_, _, rfl⟩ := hpl.push _ _ _ _ _ _ h2; cases he; rfl
  | pop h2 => obtain ⟨_, _, rfl⟩ := hpl.pop _ _ _ _ _ h2; cases he; rfl
  | inside h2 h3 =>
    rcases hpl.step _ _ _ _ _ _ _ (hb _ _ rfl) h2 with ⟨rfl, _⟩ | ⟨r, rfl, _⟩
    · cases he
    · exact absurd rfl (h3 _ _)
  | finish h2 =>
    rcases hpl.step _ _ _ _ _ _ _ (hb _ _ rfl) h2 with ⟨h4, _⟩ | ⟨r, h4, _⟩
    · cases h4
    · cases h4; cases he; rfl
  | _ => cases he

theorem forever_no_event (hpl : Plays m x ok) (hx : Forever (mach m x) (okBy m x ok) T C t ch e) (h0 : C 0 = initial x s₀) {n u : Nat}
    (h : t n ≠ u) : ofThread u (e n).toList = [] := by
  cases he : e n with
  | none => rfl
  | some ev => exact ofThread_ne (by rw [forever_event hpl hx h0 he]; exact h)

/-- A thread in a call: it goes on with it or returns. -/
theorem forever_call (hpl : Plays m x ok) (hx : Forever (mach m x) (okBy m x ok) T C t ch e) (h0 : C 0 = initial x s₀) {n u : Nat} {a p}
    (h : (C n).pc u = .call a p) :
    (ofThread u (e n).toList = [] ∧ ∃ p', (C (n + 1)).pc u = .call a p') ∨
      (t n = u ∧ ∃ r, e n = some (.res u r) ∧ (C (n + 1)).pc u = .at (after a (x.result a r))) := by
  by_cases hu : t n = u
  · have h1 := forever_trans hx n
    have hb := call_busy hpl (forever_runs hx h0 n) u a p h
    rw [hu, h] at h1
    generalize (C (n + 1)).s.1 = s' at h1
    generalize (C (n + 1)).s.2 = g' at h1
    generalize ch n = c at h1
    generalize hp : (C (n + 1)).pc u = p' at h1
    generalize e n = ev at h1
    cases h1 with
    | inside h2 h3 =>
      rcases hpl.step _ _ _ _ _ _ _ hb h2 with ⟨rfl, _⟩ | ⟨r, rfl, _⟩
      · exact .inl ⟨rfl, _, rfl⟩
      · exact absurd rfl (h3 _ _)
    | finish h2 =>
      rcases hpl.step _ _ _ _ _ _ _ hb h2 with ⟨h4, _⟩ | ⟨r, h4, _⟩
      · cases h4
      · cases h4; exact .inr ⟨hu, _, rfl, rfl⟩
  · exact .inl ⟨forever_no_event hpl hx h0 hu, p, by rw [forever_other hx hu, h]⟩

/-! ### Counting the steps of a call -/

theorem quiet_count {w : Nat → Ch → Nat} {t : Nat} {l : List Ch} : ∀ {s s' : S}, quiet m t s l = some s' → ∀ c, ∃ c', c ≤ c' ∧
    quiet (m.count w) t (s, c) l = some (s', c') := by
  induction l with
  | nil => intro s s' h c; cases h; exact ⟨c, Nat.le_refl _, rfl⟩
  | cons ch l ih =>
    intro s s' h c
    simp only [quiet] at h
    split at h
    · rename_i s₁ p₁ h1
      obtain ⟨c', h2, h3⟩ := ih h (c + w t ch)
      refine ⟨c', by omega, ?_⟩
      simp only [quiet, Mach.count, h1, Option.map_some]
      exact h3
    · cases h

/-- A step of the program on the container that counts. -/
theorem step_count {w : Nat → Ch → Nat} {t : Nat} {σ σ' : S × Vars} {p p' : PC P} {ch e} (hs : (mach m x).step t σ p ch = some (σ', p', e)) (c : Nat) :
    ∃ c', c ≤ c' ∧ (∀ a q ch', p = .call a q → ch = .inner ch' → c' = c + w t ch') ∧
      (mach (m.count w) x).step t ((σ.1, c), σ.2) p ch = some (((σ'.1, c'), σ'.2), p', e) := by
  simp only [mach] at hs
  split at hs
  · split at hs
    · rename_i h1
      simp only [Option.map_eq_some_iff] at hs
      obtain ⟨s, h2, h3⟩ := hs
      cases h3
      obtain ⟨c', h4, h5⟩ := quiet_count (w := w) h2 c
      exact ⟨c', h4, nofun, by simp [mach, h1, h5]⟩
    · rename_i h1; cases hs; exact ⟨c, Nat.le_refl _, nofun, by simp [mach, h1]⟩
  · cases hs; exact ⟨c, Nat.le_refl _, nofun, by simp [mach]⟩
  · rename_i i v
    simp only [Option.map_eq_some_iff] at hs
    obtain ⟨⟨a, b, d⟩, h2, h3⟩ := hs
    cases h3
    exact ⟨c + w t (x.push v), Nat.le_add_right _ _, nofun, by simp only [mach, Mach.count, h2, Option.map_some]⟩
  · split at hs
    · rename_i h1
      simp only [Option.map_eq_some_iff] at hs
      obtain ⟨s, h2, h3⟩ := hs
      cases h3
      obtain ⟨c', h4, h5⟩ := quiet_count (w := w) h2 c
      exact ⟨c', h4, nofun, by simp [mach, h1, h5]⟩
    · rename_i h1; cases hs; exact ⟨c, Nat.le_refl _, nofun, by simp [mach, h1]⟩
  · cases hs; exact ⟨c, Nat.le_refl _, nofun, by simp [mach]⟩
  · simp only [Option.map_eq_some_iff] at hs
    obtain ⟨⟨a, b, d⟩, h2, h3⟩ := hs
    cases h3
    exact ⟨c + w t x.pop, Nat.le_add_right _ _, nofun, by simp only [mach, Mach.count, h2, Option.map_some]⟩
  · cases hs; exact ⟨c, Nat.le_refl _, nofun, by simp [mach]⟩
  · cases hs; exact ⟨c, Nat.le_refl _, nofun, by simp [mach]⟩
  · split at hs
    · rename_i h1
      simp only [Option.map_eq_some_iff] at hs
      obtain ⟨s, h2, h3⟩ := hs
      cases h3
      obtain ⟨c', h4, h5⟩ := quiet_count (w := w) h2 c
      exact ⟨c', h4, nofun, by simp only [mach, h1, if_true, h5, Option.map_some]⟩
    · cases hs
  · simp only [Option.map_eq_some_iff] at hs
    obtain ⟨s, h2, h3⟩ := hs
    cases h3
    obtain ⟨c', h4, h5⟩ := quiet_count (w := w) h2 c
    exact ⟨c', h4, nofun, by simp [mach, h5]⟩
  · split at hs
    · rename_i h1; cases hs; exact ⟨c, Nat.le_refl _, nofun, by simp only [mach, h1, if_true]⟩
    · cases hs
  · rename_i a q ch'
    refine ⟨c + w t ch', Nat.le_add_right _ _, fun a' q' c' _ h => by cases h; rfl, ?_⟩
    split at hs
    · cases hs
    · rename_i h1; cases hs; simp [mach, Mach.count, h1]
    · rename_i h1 h2
      cases hs
      simp only [mach, Mach.count, h2, Option.map_some]
  · cases hs

/-- Number of steps of calls thread `u` makes in steps `n, .., n + k - 1`. -/
def callSteps (C : Nat → MConf (S × Vars) (PC P)) (t : Nat → Nat) (u n : Nat) : Nat → Nat
  | 0 => 0
  | k + 1 => callSteps C t u n k + match (C (n + k)).pc u with
    | .call _ _ => if t (n + k) = u then 1 else 0
    | .at _ => 0

/-- A part of the execution, on the container that counts. -/
theorem forever_count {w : Nat → Ch → Nat} (hpl : Plays m x ok) (hpl' : Plays (m.count w) x fun s => ok s.1)
    (hx : Forever (mach m x) (okBy m x ok) T C t ch e) (h0 : C 0 = initial x s₀) {u : Nat} (hw : ∀ i c, t i = u → ch i = .inner c → 1 ≤ w u c) (n : Nat) :
    ∀ k, ∃ c, callSteps C t u n k ≤ c ∧ MSteps (m.count w) (fun s => ok s.1) ⟨((C n).s.1, 0), (Mach.baseOf m (C n)).pc⟩ (between e n k)
      ⟨((C (n + k)).s.1, c), (Mach.baseOf m (C (n + k))).pc⟩
  | 0 => ⟨0, Nat.le_refl _, .refl _⟩
  | k + 1 => by
    obtain ⟨c, h1, h2⟩ := forever_count hpl hpl' hx h0 hw n k
    obtain ⟨p', h3, h4⟩ := hx.step (n + k)
    obtain ⟨c', h5, h6, h7⟩ := step_count (w := w) h3 c
    refine ⟨c', ?_, ?_⟩
    · simp only [callSteps]
      split
      · rename_i a q hq
        split
        · rename_i hu
          have h8 := forever_trans hx (n + k)
          rw [hu, hq] at h8
          generalize hc : ch (n + k) = cc at h8
          have h9 : ∃ c₁, cc = .inner c₁ := by
            generalize (C (n + k + 1)).s.1 = s' at h8
            generalize (C (n + k + 1)).s.2 = g' at h8
            generalize (C (n + k + 1)).pc u = p₁ at h8
            generalize e (n + k) = ev at h8
            cases h8 <;> exact ⟨_, rfl⟩
          obtain ⟨c₁, rfl⟩ := h9
          have h10 := h6 a q c₁ (by rw [hu]; exact hq) hc
          have h11 := hw _ _ hu hc
          rw [hu] at h10
          omega
        · omega
      · omega
    · have hb := call_busy hpl (forever_runs hx h0 (n + k))
      have h8 := base_step hpl' (C := ⟨(((C (n + k)).s.1, c), (C (n + k)).s.2), (C (n + k)).pc⟩) hb h7 (by
        have := hx.ok (n + k)
        revert this
        generalize (C (n + k)).pc (t (n + k)) = p
        generalize ch (n + k) = cc
        intro h
        simp only [okBy] at h ⊢
        split <;> simp_all [Mach.count])
      rw [← h4] at h8
      exact h2.trans h8

end Verif.Example
