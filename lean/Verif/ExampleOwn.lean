import Verif.Delay
import Verif.ExampleForever

/-!
# The example programs: the steps one thread makes in calls

No code of /repo is modelled here.
-/

namespace Verif.Example
open Lin

variable {S P Ch O R : Type} {m : Mach S P Ch O R} {x : Setup Ch R} {ok : S → P → Ch → Prop} {s₀ : S} {C : Nat → MConf (S × Vars) (PC P)}
  {t : Nat → Nat} {ch : Nat → Choice Ch} {e : Nat → Option (Event O R)} {T : Nat} {spur : P → Ch → Bool}

/-- The steps of one thread in calls, on the container. -/
theorem forever_own (hpl : Plays m x ok) (hx : Forever (mach m x) (okBy m x ok) T C t ch e) (h0 : C 0 = initial x s₀)
    (hsync : x.exit = [] ∧ x.join = [] ∧ x.publish = [] ∧ x.see = []) (hcalls : ∀ c, spur m.idle c = true → (∀ v, c ≠ x.push v) ∧ c ≠ x.pop) {N : Nat}
    (hN : ∀ n, N ≤ n → ∀ c, ch n = .inner c → spur (Mach.pcOf m ((C n).pc (t n))) c = false) (u : Nat) :
    ∀ n, ∃ k f, Own m ok spur T u ⟨s₀, fun _ => m.idle⟩ (firstEvents e n) (Mach.baseOf m (C n)) k f ∧ callSteps C t u 0 n ≤ k + f ∧ f ≤ N ∧ f ≤ n
  | 0 => ⟨0, 0, by rw [h0]; exact .refl, Nat.le_refl _, Nat.zero_le _, Nat.le_refl _⟩
  | n + 1 => by
    obtain ⟨k, f, h1, h2, h3, h4⟩ := forever_own hpl hx h0 hsync hcalls hN u n
    obtain ⟨p', h5, h6⟩ := hx.step n
    have hb := call_busy hpl (forever_runs hx h0 n) (t n)
    have hok := hx.ok n
    have hC : Mach.baseOf m (C (n + 1)) = ⟨(C (n + 1)).s.1, upd (Mach.baseOf m (C n)).pc (t n) (Mach.pcOf m p')⟩ := by
      have := base_upd (m := m) (C n) (t n) (C (n + 1)).s p'
      rw [← h6] at this
      exact this
    have hidle : ∀ a, (C n).pc (t n) = .at a → e n = none → Mach.pcOf m p' = m.idle → (C (n + 1)).s.1 = (C n).s.1 →
        ∃ k f, Own m ok spur T u ⟨s₀, fun _ => m.idle⟩ (firstEvents e (n + 1)) (Mach.baseOf m (C (n + 1))) k f ∧ callSteps C t u 0 (n + 1) ≤ k + f ∧
          f ≤ N ∧ f ≤ n + 1 := by
      intro a ha he hp hs
      refine ⟨k, f, ?_, ?_, h3, by omega⟩
      · rw [hC, hp, hs]
        have h7 : upd (Mach.baseOf m (C n)).pc (t n) m.idle = (Mach.baseOf m (C n)).pc := by
          have : (Mach.baseOf m (C n)).pc (t n) = m.idle := by simp only [Mach.baseOf, ha, Mach.pcOf]
          rw [← this]; exact upd_eq_self _ _
        rw [h7]
        simp only [firstEvents, he, Option.toList, List.append_nil]
        exact h1
      · simp only [callSteps, Nat.zero_add]
        split
        · rename_i a' q hq
          split
          · rename_i hu; rw [hu, hq] at ha; cases ha
          · omega
        · omega
    have hdoes : ∀ c, m.step (t n) (C n).s.1 (Mach.pcOf m ((C n).pc (t n))) c = some ((C (n + 1)).s.1, Mach.pcOf m p', e n) →
        ok (C n).s.1 (Mach.pcOf m ((C n).pc (t n))) c → (N ≤ n → spur (Mach.pcOf m ((C n).pc (t n))) c = false) →
        ∃ k f, Own m ok spur T u ⟨s₀, fun _ => m.idle⟩ (firstEvents e (n + 1)) (Mach.baseOf m (C (n + 1))) k f ∧ callSteps C t u 0 (n + 1) ≤ k + f ∧
          f ≤ N ∧ f ≤ n + 1 := by
      intro c hc hok' hsp
      have h7 := Own.step h1 (hx.thread n) (show m.step (t n) (Mach.baseOf m (C n)).s ((Mach.baseOf m (C n)).pc (t n)) c = _ from hc) hok'
      rw [← hC] at h7
      refine ⟨_, _, h7, ?_, ?_, ?_⟩
      · simp only [callSteps, Nat.zero_add]
        split
        · by_cases hu : t n = u
          · cases hs : spur ((Mach.baseOf m (C n)).pc (t n)) c <;> simp [hu] <;> omega
          · simp [hu]; omega
        · omega
      · by_cases hn : N ≤ n
        · have : spur ((Mach.baseOf m (C n)).pc (t n)) c = false := hsp hn
          simp only [this]; simp; omega
        · split <;> omega
      · split <;> omega
    have h8 := trans_of_step h5
    generalize hs' : (C (n + 1)).s.1 = s' at h8 hidle hdoes
    generalize hg' : (C (n + 1)).s.2 = g' at h8
    generalize hp : (C n).pc (t n) = p at h8 hidle hdoes hok hb
    generalize hev : e n = ev at h8 hidle hdoes
    generalize hcn : ch n = c at h8 hok
    have hqu : ∀ l s', l = [] → quiet m (t n) (C n).s.1 l = some s' → s' = (C n).s.1 := by
      rintro l s' rfl h; cases h; rfl
    cases h8 with
    | exit _ h => exact hidle _ rfl rfl rfl (hqu _ _ hsync.1 h)
    | see _ h => exact hidle _ rfl rfl rfl (hqu _ _ hsync.2.2.2 h)
    | join _ h => exact hidle _ rfl rfl rfl (hqu _ _ hsync.2.1 h)
    | publish h => exact hidle _ rfl rfl rfl (hqu _ _ hsync.2.2.1 h)
    | more | count | test | counted | leave | joined => exact hidle _ rfl rfl rfl rfl
    | push h => exact hdoes _ h hok fun _ => Bool.eq_false_iff.2 fun h => (hcalls _ h).1 _ rfl
    | pop h => exact hdoes _ h hok fun _ => Bool.eq_false_iff.2 fun h => (hcalls _ h).2 rfl
    | inside h => exact hdoes _ h hok fun hn => by have := hN n hn _ hcn; rwa [hp] at this
    | @finish a q c s' q' v r h =>
      have h9 : q' = m.idle := by
        rcases hpl.step _ _ _ _ _ _ _ (hb _ _ rfl) h with ⟨h, _⟩ | ⟨_, _, h⟩
        · cases h
        · exact h
      subst h9
      exact hdoes _ h hok fun hn => by have := hN n hn _ hcn; rwa [hp] at this

/-- A thread that stays in calls and goes on makes any number of steps of calls. -/
theorem callSteps_unbounded {u n : Nat} (hin : ∀ j, n ≤ j → ∃ a p, (C j).pc u = .call a p) (hgo : ∀ i, ∃ j, i ≤ j ∧ t j = u) :
    ∀ B, ∃ k, n ≤ k ∧ B ≤ callSteps C t u 0 k
  | 0 => ⟨n, Nat.le_refl _, Nat.zero_le _⟩
  | B + 1 => by
    obtain ⟨k, h1, h2⟩ := callSteps_unbounded hin hgo B
    obtain ⟨j, h3, h4⟩ := hgo k
    have hmono : ∀ d, callSteps C t u 0 k ≤ callSteps C t u 0 (k + d) := by
      intro d
      induction d with
      | zero => exact Nat.le_refl _
      | succ d ih => rw [← Nat.add_assoc]; simp only [callSteps]; omega
    refine ⟨j + 1, by omega, ?_⟩
    have h5 := hmono (j - k)
    rw [show k + (j - k) = j by omega] at h5
    obtain ⟨a, p, hp⟩ := hin j (by omega)
    simp only [callSteps, Nat.zero_add, hp, h4, if_true]
    omega

end Verif.Example
