import Verif.ExampleStuck
import Verif.StressEnd

/-!
# Client programs and the stress tests: no deadlock (C71)

No code of /repo is modelled here.
-/

namespace Verif
open Lin

namespace User
open Verif.Example (quiet)

variable {S P G K Ch O R : Type} {m : Mach S P Ch O R} {c : Script G K Ch R} {k₀ : K} {C : MConf (S × G) (PC K P)} {u : Nat} {k : K}

theorem able_inside {p : P} (hp : C.pc u = .call k p) (h : ∃ ch y, m.step u C.s.1 p ch = some y) : (mach m c k₀).CanStep C u := by
  obtain ⟨ch, ⟨s', p', e⟩, h⟩ := h
  unfold Mach.CanStep
  rw [hp]
  refine ⟨.inner ch, ?_⟩
  cases e with
  | none => exact ⟨_, by simp only [mach, h]; rfl⟩
  | some ev => cases ev <;> exact ⟨_, by simp only [mach, h]; rfl⟩

theorem able_call {ch : Ch} (hp : C.pc u = .at k) (hc : c.calls k = some ch) (h : ∃ y, m.step u C.s.1 m.idle ch = some y) : (mach m c k₀).CanStep C u := by
  obtain ⟨y, h⟩ := h
  unfold Mach.CanStep
  rw [hp]
  exact ⟨.go true, _, by simp only [mach, hc, h]; rfl⟩

theorem able_act {b : Bool} {g l k'} (hp : C.pc u = .at k) (hc : c.calls k = none) (ha : c.act u C.s.2 k b = some (g, l, k'))
    (h : ∃ s', quiet m u C.s.1 l = some s') : (mach m c k₀).CanStep C u := by
  obtain ⟨s', h⟩ := h
  unfold Mach.CanStep
  rw [hp]
  exact ⟨.go b, _, by simp only [mach, hc, ha, Option.bind_some, h]; rfl⟩

/-- A thread in a call is at a place of a call. -/
theorem Runs.calling {ok : S → P → Ch → Prop} {s₀ : S} {g₀ : G} {start : Nat → K} {h : History O R} (hx : Runs m c k₀ ok s₀ g₀ start h C) {p : P} :
    C.pc u = .call k p → c.calls k ≠ none := by
  induction hx generalizing p with
  | refl => intro h; cases h
  | @step h C t ch σ' p' e hx hs hok ih =>
    have hs' := trans_of_step hs
    obtain ⟨s₂, g₂⟩ := σ'
    simp only at hs'
    intro hu
    by_cases hut : u = t
    · subst hut
      simp only [upd_self] at hu
      subst hu
      generalize hq : (PC.call k p : PC K P) = q at hs'
      generalize hp : C.pc u = p₀ at hs'
      cases hs' with
      | call h1 => cases hq; rw [h1]; simp
      | act => cases hq
      | inside => cases hq; exact ih hp
      | finish => cases hq
    · simp only [upd_ne _ _ _ hut] at hu
      exact ih hu

end User

namespace Stress
open User
open Verif.Example (quiet)

variable {S P Ch O R : Type} {m : Mach S P Ch O R} {x : Setup Ch R} {ok : S → P → Ch → Prop} {s₀ : S} {h : History O R}
  {C : MConf (S × Vars) (User.PC At P)}

theorem Runs.ended (hx : Runs m x ok s₀ h C) (u : Nat) : C.pc u = .at .ended → C.s.2.ended u = true := by
  induction hx with
  | refl =>
    intro h
    simp only [start, User.PC.at.injEq] at h
    split at h
    · cases h
    · split at h
      · cases h
      · split at h <;> cases h
  | @step h C t ch σ' p' e hx hs hok ih =>
    have hs' := User.trans_of_step hs
    obtain ⟨s₂, g₂⟩ := σ'
    simp only at hs'
    intro hu
    by_cases hut : u = t
    · subst hut
      simp only [upd_self] at hu
      subst hu
      have hcall := fun k p => User.Runs.calling hx (u := u) (k := k) (p := p)
      generalize C.pc u = p at hs' hcall
      generalize hq : (User.PC.at At.ended : User.PC At P) = q at hs'
      cases hs' with
      | call => cases hq
      | inside => cases hq
      | @act k b g' l k' s' h1 h2 h3 =>
        cases hq
        cases k <;> simp only [script, reduceCtorEq, Option.some.injEq, Prod.mk.injEq] at h2
        all_goals (repeat' split at h2) <;> first | (simp at h2; done) | skip
        obtain ⟨rfl, -, -⟩ := h2
        simp
      | @finish k p ch s' p' u' r h1 =>
        simp only [User.PC.at.injEq] at hq
        have := hcall _ _ rfl
        cases k <;> simp only [script] at hq this <;> first
          | exact absurd rfl this
          | ((repeat' split at hq) <;> cases hq)
    · simp only [upd_ne _ _ _ hut] at hu
      have := ih hu
      generalize C.pc t = p at hs'
      cases hs' with
      | call | inside | finish => exact this
      | @act k b g' l k' s' h1 h2 h3 =>
        cases k <;> simp only [script, reduceCtorEq, Option.some.injEq, Prod.mk.injEq] at h2
        all_goals (repeat' split at h2)
        all_goals first
          | (simp at h2; done)
          | (simp only [Option.some.injEq, Prod.mk.injEq] at h2; obtain ⟨rfl, -, -⟩ := h2; simp [this, hut])
          | (obtain ⟨rfl, -, -⟩ := h2; simp [this, hut])

/-- What the container lets a thread do in the configuration `C`: begin a call, go on with a call, synchronise. -/
structure Lets (m : Mach S P Ch O R) (x : Setup Ch R) (C : MConf (S × Vars) (User.PC At P)) : Prop where
  push : ∀ t < x.writers, ∀ v, ∃ y, m.step t C.s.1 m.idle (x.push v) = some y
  pop : ∀ t, x.writers ≤ t → t < x.main → ∃ y, m.step t C.s.1 m.idle x.pop = some y
  call : ∀ t a p, C.pc t = .call a p → ∃ ch y, m.step t C.s.1 p ch = some y
  sync : ∀ t, ∃ s', quiet m t C.s.1 x.exit = some s'

theorem Lets.able (hl : Lets m x C) {u : Nat} (hr : Role x u (C.pc u).here) (hu : u < x.main) (h1 : C.pc u ≠ .at .ended)
    (h2 : ∀ i, C.pc u ≠ .at (.threw i)) : (mach m (script x) .absent).CanStep C u := by
  cases hp : C.pc u with
  | call a p => exact able_inside hp (hl.call u a p hp)
  | «at» a =>
    rw [hp] at hr h1 h2
    simp only [User.PC.here] at hr
    have hn : ∃ s', quiet m u C.s.1 [] = some s' := ⟨_, rfl⟩
    cases a with
    | push i v => exact able_call hp rfl (hl.push u hr v)
    | pop l => exact able_call hp rfl (hl.pop u hr.1 hr.2)
    | forTest | gen | pushed | counted | leave | erase => exact able_act (b := true) hp rfl rfl hn
    | report => exact able_act (b := true) hp rfl rfl (hl.sync u)
    | load => exact able_act (b := false) hp rfl rfl hn
    | insert i v =>
      by_cases h : v ∈ C.s.2.data
      · exact able_act (b := true) hp rfl (by simp only [script, h, if_true]; rfl) hn
      · exact able_act (b := true) hp rfl (by simp only [script, h, if_false]; rfl) hn
    | insertD l v er =>
      by_cases h : er = true ∧ v ∉ C.s.2.dequeued
      · exact able_act (b := true) hp rfl (by simp only [script]; rw [if_pos h]) hn
      · exact able_act (b := true) hp rfl (by simp only [script]; rw [if_neg h]) hn
    | ended => exact absurd rfl h1
    | threw i => exact absurd rfl (h2 i)
    | joinWriters | joinReaders | check | counts | passed | failed => exact absurd hr (Nat.ne_of_lt hu)
    | absent => exact absurd hr (Nat.not_lt.2 (Nat.le_of_lt hu))

/-- Until the test is over, or an exception ends the program, some thread can make a step. -/
theorem never_stuck (hrole : ∀ t, Role x t (C.pc t).here) (hx : Runs m x ok s₀ h C) (hl : Lets m x C) (ht : ∀ u < x.main, ∀ i, C.pc u ≠ .at (.threw i))
    (hp : C.pc x.main ≠ .at .passed) (hp' : C.pc x.main ≠ .at .failed) : ∃ u ≤ x.main, (mach m (script x) .absent).CanStep C u := by
  by_cases hall : ∀ u < x.main, C.pc u = .at .ended
  · refine ⟨x.main, Nat.le_refl _, ?_⟩
    have he : ∀ u < x.main, C.s.2.ended u = true := fun u hu => Runs.ended hx u (hall u hu)
    have hr := hrole x.main
    have hm : x.main = x.writers + x.readers := rfl
    have hcall := fun k p => User.Runs.calling hx (u := x.main) (k := k) (p := p)
    generalize hq : C.pc x.main = q at hr hp hp' hcall
    have hn : ∃ s', quiet m x.main C.s.1 [] = some s' := ⟨_, rfl⟩
    cases q with
    | call a p => exact able_inside hq (hl.call _ a p hq)
    | «at» a =>
      cases a with
      | joinWriters =>
        refine able_act (b := true) hq rfl (g := C.s.2) (l := []) (k' := .joinReaders) ?_ hn
        simp only [script]
        rw [if_pos (by simp only [List.all_eq_true, List.mem_range]; intro u hu; exact he u (by omega))]
      | joinReaders =>
        refine able_act (b := true) hq rfl (g := C.s.2) (l := []) (k' := .check) ?_ hn
        simp only [script]
        rw [if_pos (by simp only [List.all_eq_true, List.mem_range]; intro u hu; exact he _ (by omega))]
      | check | counts => exact able_act (b := true) hq rfl rfl hn
      | passed => exact absurd rfl hp
      | failed => exact absurd rfl hp'
      | _ => simp [Role, User.PC.here] at hr <;> omega
  · obtain ⟨u, hu⟩ := Classical.not_forall.1 hall
    obtain ⟨hu, hne⟩ := Classical.not_imp.1 hu
    exact ⟨u, Nat.le_of_lt hu, hl.able (hrole u) hu hne (ht u hu)⟩

end Stress
end Verif
