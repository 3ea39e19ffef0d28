import Verif.ExampleEnd

/-!
# The example programs: no deadlock (C71)

No code of /repo is modelled here.
-/

namespace Verif
open Lin

/-- Thread `u` can make a step. -/
def Mach.CanStep {S P Ch O R : Type} (m : Mach S P Ch O R) (C : MConf S P) (u : Nat) : Prop := ∃ ch y, m.step u C.s (C.pc u) ch = some y

namespace Example

variable {S P Ch O R O' R' : Type} {m : Mach S P Ch O R} {x : Setup Ch R} {ok : S → P → Ch → Prop} {s₀ : S} {h : History O R}
  {C : MConf (S × Vars) (PC P)}

theorem Runs.ended (hx : Runs m x ok s₀ h C) (u : Nat) : C.pc u = .at .ended → C.s.2.ended u = true := by
  induction hx with
  | refl =>
    intro h
    simp only [initial, PC.at.injEq] at h
    split at h
    · cases h
    · split at h
      · cases h
      · split at h <;> cases h
  | @step h C t ch σ' p' e hx hs hok ih =>
    have hs' := trans_of_step hs
    obtain ⟨s₂, g₂⟩ := σ'
    simp only at hs'
    have hne : ∀ a (b : Option Bool), after a b ≠ .ended := by
      intro a b
      cases a <;> cases b <;> simp [after] <;> (repeat' split) <;> simp
    intro hu
    by_cases hut : u = t
    · subst hut
      simp only [upd_self] at hu
      subst hu
      generalize C.pc u = p at hs'
      generalize hq : (PC.at At.ended : PC P) = q at hs'
      cases hs' <;> first
        | (cases hq; done)
        | simp
        | skip
      simp only [PC.at.injEq] at hq
      exact absurd hq.symm (hne _ _)
    · simp only [upd_ne _ _ _ hut] at hu
      have := ih hu
      generalize C.pc t = p at hs'
      cases hs' <;> simp [this, hut]

/-- What the container lets a thread do in the configuration `C`: begin a call, go on with a call, synchronise. -/
structure Lets (m : Mach S P Ch O R) (x : Setup Ch R) (C : MConf (S × Vars) (PC P)) : Prop where
  push : ∀ t < x.producers, ∀ v, ∃ y, m.step t C.s.1 m.idle (x.push v) = some y
  pop : ∀ t, x.producers ≤ t → t < x.main → ∃ y, m.step t C.s.1 m.idle x.pop = some y
  call : ∀ t a p, C.pc t = .call a p → ∃ ch y, m.step t C.s.1 p ch = some y
  sync : ∀ t, (∃ s', quiet m t C.s.1 x.exit = some s') ∧ (∃ s', quiet m t C.s.1 x.see = some s') ∧ (∃ s', quiet m t C.s.1 x.join = some s') ∧
    ∃ s', quiet m t C.s.1 x.publish = some s'

theorem Lets.able (hl : Lets m x C) {u : Nat} (hr : Role x u (C.pc u)) (hu : u < x.main) (h1 : C.pc u ≠ .at .ended) (h2 : C.pc u ≠ .at .terminated) :
    (mach m x).CanStep C u := by
  unfold Mach.CanStep
  cases hp : C.pc u with
  | call a p =>
    obtain ⟨ch, ⟨s', p', e⟩, h⟩ := hl.call u a p hp
    refine ⟨.inner ch, ?_⟩
    cases e with
    | none => exact ⟨_, by simp only [mach, h]; rfl⟩
    | some ev => cases ev <;> exact ⟨_, by simp only [mach, h]; rfl⟩
  | «at» a =>
    rw [hp] at hr h1 h2
    cases a with
    | forTest i =>
      refine ⟨.go, ?_⟩
      by_cases h : i = x.iterations
      · obtain ⟨s', h'⟩ := (hl.sync u).1
        exact ⟨_, by simp only [mach, h, if_true, h']; rfl⟩
      · exact ⟨_, by simp only [mach, h, if_false]; rfl⟩
    | count i => exact ⟨.go, _, rfl⟩
    | push i v =>
      obtain ⟨y, h⟩ := hl.push u hr v
      exact ⟨.go, _, by simp only [mach, h]; rfl⟩
    | test => exact ⟨.stale, _, rfl⟩
    | pop l =>
      obtain ⟨y, h⟩ := hl.pop u hr.1 hr.2
      exact ⟨.go, _, by simp only [mach, h]; rfl⟩
    | counted l => exact ⟨.go, _, rfl⟩
    | leave => exact ⟨.go, _, rfl⟩
    | ended => exact absurd rfl h1
    | terminated => exact absurd rfl h2
    | joinProducers | setDone | joinConsumers | print => exact absurd hr (Nat.ne_of_lt hu)
    | absent => exact absurd hr (Nat.not_lt.2 (Nat.le_of_lt hu))

/-- Until `main` has joined all threads, or an exception ends the program, some thread can make a step. -/
theorem never_stuck {push : Nat → O'} {pop : O'} {res : R' → Option Bool} {put get : O' → R' → List Nat} {b : History O' R'}
    (hi : Inv m x push pop res put get b C) (hx : Runs m x ok s₀ h C) (hl : Lets m x C) (ht : ∀ u < x.main, C.pc u ≠ .at .terminated)
    (hp : C.pc x.main ≠ .at .print) : ∃ u ≤ x.main, (mach m x).CanStep C u := by
  by_cases hall : ∀ u < x.main, C.pc u = .at .ended
  · refine ⟨x.main, Nat.le_refl _, ?_⟩
    have he : ∀ u < x.main, C.s.2.ended u = true := fun u hu => hx.ended u (hall u hu)
    have hr := hi.role x.main
    unfold Mach.CanStep
    generalize hq : C.pc x.main = q at hr hp
    cases q with
    | call a p => cases a <;> simp [Role, Setup.main] at hr <;> omega
    | «at» a =>
      cases a with
      | joinProducers =>
        obtain ⟨s', h'⟩ := (hl.sync x.main).2.2.1
        exact ⟨.go, _, by
          simp only [mach]
          rw [if_pos (by simp only [List.all_eq_true, List.mem_range]; intro u hu; exact he u (by simp only [Setup.main]; omega)), h']; rfl⟩
      | setDone =>
        obtain ⟨s', h'⟩ := (hl.sync x.main).2.2.2
        exact ⟨.go, _, by simp only [mach, h']; rfl⟩
      | joinConsumers =>
        exact ⟨.go, _, by
          simp only [mach]
          rw [if_pos (by simp only [List.all_eq_true, List.mem_range]; intro u hu; exact he _ (by simp only [Setup.main]; omega))]⟩
      | print => exact absurd rfl hp
      | _ => simp [Role, Setup.main] at hr <;> omega
  · obtain ⟨u, hu⟩ := Classical.not_forall.1 hall
    obtain ⟨hu, hne⟩ := Classical.not_imp.1 hu
    exact ⟨u, Nat.le_of_lt hu, hl.able (hi.role u) hu hne (ht u hu)⟩

end Example
end Verif
