import Verif.User
import Verif.Threads

/-!
# Programs that use a container: the call a thread is in

Proofs only.
-/

namespace Verif.User
open Lin

variable {S P G K Ch O R O' R' : Type} {m : Mach S P Ch O R} {c : Script G K Ch R} {k₀ : K} {ok : S → P → Ch → Prop}
  {op : K → O'} {so : O → O'} {h h₁ h₂ : History O R} {C C₁ : MConf (S × G) (PC K P)} {s : S} {g : G} {start : Nat → K}

/-- The events of a step are those of the thread. -/
theorem event_tid (hpl : Plays m c ok) (hrd : Reads m c so op) (hb : ∀ t k p, C.pc t = .call k p → p ≠ m.idle) {t ch σ' p' ev}
    (hs : (mach m c k₀).step t C.s (C.pc t) ch = some (σ', p', some ev)) : ev.tid = t := by
  have hs' := trans_of_step hs
  obtain ⟨s₂, g₂⟩ := σ'
  simp only at hs'
  generalize hp : C.pc t = p at hs'
  cases hs' with
  | call hk h1 =>
    obtain ⟨o, h2, _⟩ := hrd.call _ _ hk _ _ _ _ _ h1
    cases h2; rfl
  | inside h1 h2 =>
    rcases hpl.step _ _ _ _ _ _ _ (hb t _ _ hp) h1 with ⟨h3, _⟩ | ⟨r, h3, _⟩
    · cases h3
    · exact absurd h3 (h2 _ _)
  | finish h1 =>
    rcases hpl.step _ _ _ _ _ _ _ (hb t _ _ hp) h1 with ⟨h3, _⟩ | ⟨r, h3, _⟩
    · cases h3
    · cases h3; rfl

theorem Runs.event_tid (hpl : Plays m c ok) (hrd : Reads m c so op) (hx : Runs m c k₀ ok s g start h C) {t ch σ' p' ev}
    (hs : (mach m c k₀).step t C.s (C.pc t) ch = some (σ', p', some ev)) : ev.tid = t := by
  have := Runs.tidy (sr := id) hpl hrd hx
  exact User.event_tid hpl hrd (fun t k p hp => (this.busy t k p hp).1) hs

/-- A thread that makes no more calls. -/
theorem Runs.resting (hpl : Plays m c ok) (hrd : Reads m c so op) (hx : Runs m c k₀ ok s g start h₁ C₁) {t : Nat} {Q : K → Prop}
    (hq : ∀ k, Q k → c.calls k = none ∧ ∀ g b y, c.act t g k b = some y → Q y.2.2)
    (hs : MSteps (mach m c k₀) (okBy m c ok) C₁ h₂ C) (h0 : ∃ k, C₁.pc t = .at k ∧ Q k) : ofThread t h₂ = [] ∧ ∃ k, C.pc t = .at k ∧ Q k := by
  induction hs with
  | refl => exact ⟨rfl, h0⟩
  | @step h C u ch σ' p' e hs hst hok ih =>
    obtain ⟨h1, k, h2, h3⟩ := ih
    by_cases hu : u = t
    · subst hu
      have hs' := trans_of_step hst
      obtain ⟨s₂, g₂⟩ := σ'
      simp only at hs'
      rw [h2] at hs'
      obtain ⟨h4, h5⟩ := hq k h3
      cases hs' with
      | call hk _ => rw [h4] at hk; cases hk
      | act _ ha _ => exact ⟨by simpa using h1, _, by simp, h5 _ _ _ ha⟩
    · refine ⟨?_, k, by simpa [upd_ne _ _ _ (Ne.symm hu)] using h2, h3⟩
      rw [ofThread_append, h1]
      cases e with
      | none => rfl
      | some ev => exact ofThread_ne (by rw [Runs.event_tid hpl hrd (hx.trans hs) hst]; exact hu)

/-- Every call has a beginning, at which `Q` held. -/
def Since (m : Mach S P Ch O R) (c : Script G K Ch R) (k₀ : K) (ok : S → P → Ch → Prop) (s : S) (g : G) (start : Nat → K) (so : O → O') (op : K → O')
    (Q : History O R → MConf (S × G) (PC K P) → Prop) (h : History O R) (C : MConf (S × G) (PC K P)) : Prop :=
  ∀ t k p, C.pc t = .call k p → ∃ h₁ C₁ h₂ o, Runs m c k₀ ok s g start h₁ C₁ ∧ Q h₁ C₁ ∧ h = h₁ ++ h₂ ∧ C₁.pc t = .at k ∧
    MSteps (mach m c k₀) (okBy m c ok) C₁ h₂ C ∧ MSteps m ok (baseOf m C₁) h₂ (baseOf m C) ∧ ofThread t h₂ = [.inv t o] ∧ so o = op k

variable {Q : History O R → MConf (S × G) (PC K P) → Prop}

theorem Since.step (hpl : Plays m c ok) (hrd : Reads m c so op) (hx : Runs m c k₀ ok s g start h C) (hQ : Q h C)
    (ih : Since m c k₀ ok s g start so op Q h C) {u ch σ' p' e}
    (hs : (mach m c k₀).step u C.s (C.pc u) ch = some (σ', p', e)) (hok : okBy m c ok C.s (C.pc u) ch) :
    Since m c k₀ ok s g start so op Q (h ++ e.toList) ⟨σ', upd C.pc u p'⟩ := by
  intro t k p hp
  have htd := Runs.tidy (sr := id) hpl hrd hx
  have hb := base_step hpl (fun t k p hp => (htd.busy t k p hp).1) hs hok
  have hst := MSteps.step (MSteps.refl (m := mach m c k₀) (ok := okBy m c ok) C) hs hok
  rw [List.nil_append] at hst
  by_cases hu : u = t
  · subst hu
    have hs' := trans_of_step hs
    obtain ⟨s₂, g₂⟩ := σ'
    simp only at hs'
    simp only [upd_self] at hp
    subst hp
    generalize hq : C.pc u = q at hs'
    cases hs' with
    | call hk h1 =>
      obtain ⟨o, rfl, h2⟩ := hrd.call _ _ hk _ _ _ _ _ h1
      exact ⟨h, C, _, o, hx, hQ, rfl, hq, hst, hb, ofThread_eq rfl, h2⟩
    | inside h1 h2 =>
      obtain ⟨h₁, C₁, h₂, o, a1, a2, rfl, a3, a4, a5, a6, a7⟩ := ih _ _ _ hq
      rcases hpl.step _ _ _ _ _ _ _ (htd.busy u _ _ hq).1 h1 with ⟨rfl, _⟩ | ⟨r, h3, _⟩
      · exact ⟨h₁, C₁, h₂, o, a1, a2, by simp, a3, by simpa using a4.trans hst, by simpa using a5.trans hb, a6, a7⟩
      · exact absurd h3 (h2 _ _)
  · simp only [upd_ne _ _ _ (Ne.symm hu)] at hp
    obtain ⟨h₁, C₁, h₂, o, a1, a2, rfl, a3, a4, a5, a6, a7⟩ := ih _ _ _ hp
    refine ⟨h₁, C₁, h₂ ++ e.toList, o, a1, a2, by simp, a3, a4.trans hst, a5.trans hb, ?_, a7⟩
    rw [ofThread_append, a6]
    cases e with
    | none => rfl
    | some ev => rw [Option.toList_some, ofThread_ne (by rw [Runs.event_tid hpl hrd hx hs]; exact hu), List.append_nil]

/-- Induction over executions, with access to the beginnings of calls. -/
theorem Runs.induct (hpl : Plays m c ok) (hrd : Reads m c so op) (h0 : Q [] ⟨(s, g), fun t => .at (start t)⟩)
    (hstep : ∀ {h C t ch σ' p' e}, Runs m c k₀ ok s g start h C → Q h C → Since m c k₀ ok s g start so op Q h C →
      (mach m c k₀).step t C.s (C.pc t) ch = some (σ', p', e) → okBy m c ok C.s (C.pc t) ch → Q (h ++ e.toList) ⟨σ', upd C.pc t p'⟩)
    (hx : Runs m c k₀ ok s g start h C) : Q h C := by
  suffices Q h C ∧ Since m c k₀ ok s g start so op Q h C from this.1
  induction hx with
  | refl => exact ⟨h0, nofun⟩
  | step hx hs hok ih => exact ⟨hstep hx ih.1 ih.2 hs hok, ih.2.step hpl hrd hx ih.1 hs hok⟩

/-- A whole call. -/
theorem Runs.whole (hpl : Plays m c ok) (hrd : Reads m c so op) (hx : Runs m c k₀ ok s g start h C) (hc : Since m c k₀ ok s g start so op Q h C)
    {t : Nat} {k p} (hp : C.pc t = .call k p) {ch σ' p' r}
    (hs : (mach m c k₀).step t C.s (C.pc t) ch = some (σ', p', some (.res t r))) (hok : okBy m c ok C.s (C.pc t) ch) :
    ∃ h₁ C₁ h₂ o, Runs m c k₀ ok s g start h₁ C₁ ∧ Q h₁ C₁ ∧ C₁.pc t = .at k ∧ MSteps (mach m c k₀) (okBy m c ok) C₁ h₂ ⟨σ', upd C.pc t p'⟩ ∧
      MSteps m ok (baseOf m C₁) h₂ (baseOf m ⟨σ', upd C.pc t p'⟩) ∧ ofThread t h₂ = [.inv t o, .res t r] ∧ so o = op k := by
  obtain ⟨h₁, C₁, h₂, o, a1, a2, rfl, a3, a4, a5, a6, a7⟩ := hc _ _ _ hp
  have htd := Runs.tidy (sr := id) hpl hrd hx
  have hb : MSteps m ok (baseOf m C) [.res t r] (baseOf m ⟨σ', upd C.pc t p'⟩) := base_step hpl (fun t k p hp => (htd.busy t k p hp).1) hs hok
  refine ⟨h₁, C₁, h₂ ++ [.res t r], o, a1, a2, a3, a4.step hs hok, a5.trans hb, ?_, a7⟩
  rw [ofThread_append, a6, ofThread_eq (t := t) (e := .res t r) rfl]
  rfl

end Verif.User
