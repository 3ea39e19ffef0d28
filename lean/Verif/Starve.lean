import Verif.Alone
import Verif.Heap

/-!
# Executions in which one thread is watched

No code of /repo is modelled here.
-/

namespace Verif
open Lin

variable {S P Ch O R : Type}

/-- `Watched m ok t C₀ h C k`: an execution from `C₀` to `C` with history `h` in which thread `t` makes `k` steps; all steps satisfy `ok`. -/
inductive Watched (m : Mach S P Ch O R) (ok : S → P → Ch → Prop) (t : Nat) (C₀ : MConf S P) : History O R → MConf S P → Nat → Prop where
  | refl : Watched m ok t C₀ [] C₀ 0
  | own {h C k ch s' p' e} : Watched m ok t C₀ h C k → m.step t C.s (C.pc t) ch = some (s', p', e) → ok C.s (C.pc t) ch →
      Watched m ok t C₀ (h ++ e.toList) ⟨s', upd C.pc t p'⟩ (k + 1)
  | other {h C k u ch s' p' e} : Watched m ok t C₀ h C k → u ≠ t → m.step u C.s (C.pc u) ch = some (s', p', e) → ok C.s (C.pc u) ch →
      Watched m ok t C₀ (h ++ e.toList) ⟨s', upd C.pc u p'⟩ k

variable {m : Mach S P Ch O R} {ok : S → P → Ch → Prop} {t u k k' : Nat} {C₀ C C' : MConf S P} {h h' : History O R} {s s' : S} {p p' : P}

theorem Watched.steps (hx : Watched m ok t C₀ h C k) : MSteps m ok C₀ h C := by
  induction hx with
  | refl => exact .refl _
  | own _ hs hok ih => exact .step ih hs hok
  | other _ _ hs hok ih => exact .step ih hs hok

theorem Watched.trans (h1 : Watched m ok t C₀ h C k) (h2 : Watched m ok t C h' C' k') : Watched m ok t C₀ (h ++ h') C' (k + k') := by
  induction h2 with
  | refl => simpa using h1
  | own _ hs hok ih => rw [← List.append_assoc]; exact .own ih hs hok
  | other _ hu hs hok ih => rw [← List.append_assoc]; exact .other ih hu hs hok

/-- The watched thread runs alone. -/
theorem Watched.alone {C : MConf S P} (hx : Alone m ok t k s p h s' p') (h1 : C.s = s) (h2 : C.pc t = p) :
    Watched m ok t C h ⟨s', upd C.pc t p'⟩ k := by
  induction hx generalizing C with
  | nil => subst h1; rw [upd_same h2]; exact .refl
  | @cons k s p ch s₁ p₁ e h s'' p'' hs hok _ ih =>
    subst h1 h2
    have h3 := ih (C := ⟨s₁, upd C.pc t p₁⟩) rfl (by simp)
    have h4 := (Watched.own .refl hs hok).trans h3
    simpa [upd_upd, Nat.add_comm] using h4

/-- Another thread runs alone. -/
theorem Watched.by_other {C : MConf S P} (hu : u ≠ t) (hx : Alone m ok u k s p h s' p') (h1 : C.s = s) (h2 : C.pc u = p) :
    Watched m ok t C h ⟨s', upd C.pc u p'⟩ 0 := by
  induction hx generalizing C with
  | nil => subst h1; rw [upd_same h2]; exact .refl
  | @cons k s p ch s₁ p₁ e h s'' p'' hs hok _ ih =>
    subst h1 h2
    have h3 := ih (C := ⟨s₁, upd C.pc u p₁⟩) rfl (by simp)
    have h4 := (Watched.other .refl hu hs hok).trans h3
    simpa [upd_upd] using h4

/-- Rounds in which the watched thread makes steps but neither calls nor returns. -/
theorem Watched.rounds_of {Q : Event O R → Prop} (J : MConf S P → Prop)
    (hJ : ∀ C, J C → ∃ h C' k, 0 < k ∧ Watched m ok t C h C' k ∧ J C' ∧ ∀ e ∈ h, Q e) (N : Nat) (hC : J C) :
    ∃ h C' k, N ≤ k ∧ Watched m ok t C h C' k ∧ J C' ∧ ∀ e ∈ h, Q e := by
  induction N with
  | zero => exact ⟨[], C, 0, Nat.le_refl _, .refl, hC, by simp⟩
  | succ N ih =>
    obtain ⟨h₁, C₁, k₁, h1, h2, h3, h4⟩ := ih
    obtain ⟨h₂, C₂, k₂, h5, h6, h7, h8⟩ := hJ C₁ h3
    refine ⟨h₁ ++ h₂, C₂, k₁ + k₂, by omega, h2.trans h6, h7, ?_⟩
    intro e he
    rcases List.mem_append.1 he with he | he
    · exact h4 e he
    · exact h8 e he

theorem Watched.rounds (J : MConf S P → Prop)
    (hJ : ∀ C, J C → ∃ h C' k, 0 < k ∧ Watched m ok t C h C' k ∧ J C' ∧ ∀ e ∈ h, e.tid = u) (N : Nat) (hC : J C) :
    ∃ h C' k, N ≤ k ∧ Watched m ok t C h C' k ∧ J C' ∧ ∀ e ∈ h, e.tid = u :=
  Watched.rounds_of J hJ N hC

theorem Cfg.nextTag_ne (cfg : Cfg) (hM : cfg.M ≠ 1) (k : Nat) : cfg.nextTag k ≠ k := by
  unfold Cfg.nextTag
  intro h
  by_cases h0 : cfg.M = 0
  · rw [h0] at h; simp at h
  · by_cases hk : k < cfg.M
    · by_cases hk' : k + 1 < cfg.M
      · rw [Nat.mod_eq_of_lt hk'] at h; omega
      · have : k + 1 = cfg.M := by omega
        rw [this, Nat.mod_self] at h; omega
    · have := Nat.mod_lt (k + 1) (y := cfg.M) (by omega)
      omega

end Verif
