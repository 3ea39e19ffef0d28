import Verif.Mach

/-!
# Consequences of a simulation by the canonical atomic object

A machine simulated step by step by the canonical atomic object of `Verif.Lin` is linearizable; here we add
where in an execution a call takes effect, and what a call does that runs alone.
-/

namespace Verif
open Lin

variable {S P Ch O R : Type} {m : Mach S P Ch O R} {ok : S → P → Ch → Prop} {C₀ C C₁ : MConf S P}
  {h : History O R} {Sp : Spec O R}

/-- `rel` is preserved by the steps of the machine, which are moves of the canonical object. -/
def Mach.SimBy (m : Mach S P Ch O R) (ok : S → P → Ch → Prop) (Sp : Spec O R)
    (rel : MConf S P → CState Sp → Prop) : Prop :=
  ∀ C c t ch s' p' e, rel C c → m.step t C.s (C.pc t) ch = some (s', p', e) → ok C.s (C.pc t) ch →
    ∃ c', rel ⟨s', upd C.pc t p'⟩ c' ∧ CMove Sp c e c'

/-- At most one step, without event. -/
def Mach.AtMostOne (m : Mach S P Ch O R) (ok : S → P → Ch → Prop) (C₁ C₂ : MConf S P) : Prop :=
  C₂ = C₁ ∨ ∃ t ch s' p', m.step t C₁.s (C₁.pc t) ch = some (s', p', none) ∧ ok C₁.s (C₁.pc t) ch ∧
    C₂ = ⟨s', upd C₁.pc t p'⟩

/-- The call invoked at `i` of `h` takes effect with result `r` between `C₁` and `C₂`, after `k` events. -/
def Effect (m : Mach S P Ch O R) (ok : S → P → Ch → Prop) (Sp : Spec O R) (rel : MConf S P → CState Sp → Prop)
    (C₀ : MConf S P) (h : History O R) (C : MConf S P) (o : O) (r : R) (k : Nat) : Prop :=
  ∃ C₁ c₁ C₂ c₂, MSteps m ok C₀ (h.take k) C₁ ∧ rel C₁ c₁ ∧ m.AtMostOne ok C₁ C₂ ∧ rel C₂ c₂ ∧
    MSteps m ok C₂ (h.drop k) C ∧ Sp.step c₁.st o r c₂.st

theorem Effect.snoc {rel : MConf S P → CState Sp → Prop} {o : O} {r : R} {k : Nat} {t ch s' p' e}
    (hx : Effect m ok Sp rel C₀ h C o r k) (hk : k ≤ h.length)
    (hs : m.step t C.s (C.pc t) ch = some (s', p', e)) (hok : ok C.s (C.pc t) ch) :
    Effect m ok Sp rel C₀ (h ++ e.toList) ⟨s', upd C.pc t p'⟩ o r k := by
  obtain ⟨C₁, c₁, C₂, c₂, h1, h2, h3, h4, h5, h6⟩ := hx
  refine ⟨C₁, c₁, C₂, c₂, ?_, h2, h3, h4, ?_, h6⟩
  · rwa [List.take_append_of_le_length hk]
  · rw [List.drop_append_of_le_length hk]; exact h5.step hs hok

/-- Where calls take effect: invariant. -/
structure InstInv (m : Mach S P Ch O R) (ok : S → P → Ch → Prop) (Sp : Spec O R)
    (rel : MConf S P → CState Sp → Prop) (C₀ : MConf S P) (h : History O R) (C : MConf S P)
    (c : CState Sp) : Prop where
  hrel : rel C c
  reach : CReach Sp h c
  pend : ∀ t o Q r, c.status t = .pend o Q → Q r →
    ∃ i k, Pending h t i o ∧ i < k ∧ k ≤ h.length ∧ Effect m ok Sp rel C₀ h C o r k
  done : ∀ t o r, c.status t = .done o r →
    ∃ i k, Pending h t i o ∧ i < k ∧ k ≤ h.length ∧ Effect m ok Sp rel C₀ h C o r k
  ret : ∀ i j r, Returned h i j r →
    ∃ t o k, h[i]? = some (.inv t o) ∧ i < k ∧ k ≤ j ∧ Effect m ok Sp rel C₀ h C o r k

theorem CReach.pend_index {c : CState Sp} (hr : CReach Sp h c) {t o Q} (hp : c.status t = .pend o Q) :
    ∃ i, Pending h t i o := by
  obtain ⟨L, hg⟩ := hr.good
  have := hg.thr t
  rw [hp] at this
  obtain ⟨i, h1, _⟩ := this
  exact ⟨i, h1⟩

theorem getElem?_append_some {A : Type} {l l' : List A} {i : Nat} {a : A} (h : l[i]? = some a) :
    (l ++ l')[i]? = some a := by
  have : i < l.length := by
    rcases Nat.lt_or_ge i l.length with h1 | h1
    · exact h1
    · rw [List.getElem?_eq_none h1] at h; simp at h
  rw [List.getElem?_append_left this]; exact h

theorem InstInv.step {rel : MConf S P → CState Sp → Prop} (hsim : m.SimBy ok Sp rel) {c : CState Sp}
    (hi : InstInv m ok Sp rel C₀ h C c) (hx : MSteps m ok C₀ h C) {t ch s' p' e}
    (hs : m.step t C.s (C.pc t) ch = some (s', p', e)) (hok : ok C.s (C.pc t) ch) :
    ∃ c', InstInv m ok Sp rel C₀ (h ++ e.toList) ⟨s', upd C.pc t p'⟩ c' := by
  obtain ⟨c', hrel, hm⟩ := hsim _ _ _ _ _ _ _ hi.hrel hs hok
  refine ⟨c', ?_⟩
  have hret : ∀ i j r, Returned h i j r → ∃ t₁ o k, (h ++ e.toList)[i]? = some (.inv t₁ o) ∧ i < k ∧ k ≤ j ∧
      Effect m ok Sp rel C₀ (h ++ e.toList) ⟨s', upd C.pc t p'⟩ o r k := by
    intro i j r hr
    obtain ⟨t1, o, k, h1, h2, h3, h4⟩ := hi.ret i j r hr
    have := hr.lt
    exact ⟨t1, o, k, getElem?_append_some h1, h2, h3, h4.snoc (by omega) hs hok⟩
  have hpend : ∀ t' o Q r, c.status t' = .pend o Q → Q r → (∀ e' ∈ e, e'.tid ≠ t') →
      ∃ i k, Pending (h ++ e.toList) t' i o ∧ i < k ∧ k ≤ (h ++ e.toList).length ∧
        Effect m ok Sp rel C₀ (h ++ e.toList) ⟨s', upd C.pc t p'⟩ o r k := by
    intro t' o Q r h1 h2 h3
    obtain ⟨i, k, h4, h5, h6, h7⟩ := hi.pend t' o Q r h1 h2
    refine ⟨i, k, ?_, h5, by simp; omega, h7.snoc h6 hs hok⟩
    cases e with
    | none => simpa using h4
    | some e => exact h4.snoc_ne (h3 e rfl)
  have hdone : ∀ t' o r, c.status t' = .done o r → (∀ e' ∈ e, e'.tid ≠ t') →
      ∃ i k, Pending (h ++ e.toList) t' i o ∧ i < k ∧ k ≤ (h ++ e.toList).length ∧
        Effect m ok Sp rel C₀ (h ++ e.toList) ⟨s', upd C.pc t p'⟩ o r k := by
    intro t' o r h1 h3
    obtain ⟨i, k, h4, h5, h6, h7⟩ := hi.done t' o r h1
    refine ⟨i, k, ?_, h5, by simp; omega, h7.snoc h6 hs hok⟩
    cases e with
    | none => simpa using h4
    | some e => exact h4.snoc_ne (h3 e rfl)
  have hres : ∀ t' r, e = some (.res t' r) →
      (∀ i o, Pending h t' i o → ∃ k, i < k ∧ k ≤ h.length ∧ Effect m ok Sp rel C₀ h C o r k) →
      ∀ i j r', Returned (h ++ e.toList) i j r' →
        ∃ t₁ o k, (h ++ e.toList)[i]? = some (.inv t₁ o) ∧ i < k ∧ k ≤ j ∧
          Effect m ok Sp rel C₀ (h ++ e.toList) ⟨s', upd C.pc t p'⟩ o r' k := by
    intro t' r he hp i j r' hr
    by_cases hj : j < h.length
    · refine hret i j r' ?_
      subst he
      exact (Returned.snoc_old hj).1 hr
    · subst he
      obtain ⟨rfl, rfl, o, hpi⟩ := hr.snoc_new hj
      obtain ⟨k, h1, h2, h3⟩ := hp i o hpi
      exact ⟨t', o, k, getElem?_append_some hpi.1, h1, h2, h3.snoc h2 hs hok⟩
  have hc' := hm
  refine ⟨hrel, hi.reach.move hm, ?_, ?_, ?_⟩
  · intro t' o Q r hst hQ
    cases hm with
    | stay => exact hpend t' o Q r hst hQ (by simp)
    | @inv t1 o1 h1 =>
      by_cases ht : t' = t1
      · subst ht; simp at hst; obtain ⟨_, rfl⟩ := hst; exact hQ.elim
      · simp only [upd_ne _ _ _ ht] at hst
        exact hpend t' o Q r hst hQ (by simp [Event.tid, Ne.symm ht])
    | @lin t1 o1 P1 r1 σ1 h1 h2 =>
      by_cases ht : t' = t1
      · subst ht; simp at hst
      · simp only [upd_ne _ _ _ ht] at hst
        exact hpend t' o Q r hst hQ (by simp)
    | @obs t1 o1 P1 r1 h1 h2 =>
      by_cases ht : t' = t1
      · subst ht
        simp at hst
        obtain ⟨rfl, rfl⟩ := hst
        rcases hQ with hQ | rfl
        · exact hpend t' o1 P1 r h1 hQ (by simp)
        · obtain ⟨i, hp⟩ := CReach.pend_index hi.reach h1
          refine ⟨i, h.length, by simpa using hp, lt_of_getElem? hp.1, by simp, C, c, C, c, by simpa using hx,
            hi.hrel, .inl rfl, hi.hrel, ?_, h2⟩
          simpa using (MSteps.refl (m := m) (ok := ok) C).step hs hok
      · simp only [upd_ne _ _ _ ht] at hst
        exact hpend t' o Q r hst hQ (by simp)
    | @res t1 o1 r1 h1 =>
      by_cases ht : t' = t1
      · subst ht; simp at hst
      · simp only [upd_ne _ _ _ ht] at hst
        exact hpend t' o Q r hst hQ (by simp [Event.tid, Ne.symm ht])
    | @resObs t1 o1 P1 r1 h1 h2 =>
      by_cases ht : t' = t1
      · subst ht; simp at hst
      · simp only [upd_ne _ _ _ ht] at hst
        exact hpend t' o Q r hst hQ (by simp [Event.tid, Ne.symm ht])
  · intro t' o r hst
    cases hm with
    | stay => exact hdone t' o r hst (by simp)
    | @inv t1 o1 h1 =>
      by_cases ht : t' = t1
      · subst ht; simp at hst
      · simp only [upd_ne _ _ _ ht] at hst
        exact hdone t' o r hst (by simp [Event.tid, Ne.symm ht])
    | @lin t1 o1 P1 r1 σ1 h1 h2 =>
      by_cases ht : t' = t1
      · subst ht
        simp at hst
        obtain ⟨rfl, rfl⟩ := hst
        obtain ⟨i, hp⟩ := CReach.pend_index hi.reach h1
        refine ⟨i, h.length, by simpa using hp, lt_of_getElem? hp.1, by simp, C, c, _, ⟨σ1, upd c.status t' (.done o1 r1)⟩, by simpa using hx,
          hi.hrel, .inr ⟨t, ch, s', p', hs, hok, rfl⟩, hrel, ?_, h2⟩
        simpa using MSteps.refl (m := m) (ok := ok) _
      · simp only [upd_ne _ _ _ ht] at hst
        exact hdone t' o r hst (by simp)
    | @obs t1 o1 P1 r1 h1 h2 =>
      by_cases ht : t' = t1
      · subst ht; simp at hst
      · simp only [upd_ne _ _ _ ht] at hst
        exact hdone t' o r hst (by simp)
    | @res t1 o1 r1 h1 =>
      by_cases ht : t' = t1
      · subst ht; simp at hst
      · simp only [upd_ne _ _ _ ht] at hst
        exact hdone t' o r hst (by simp [Event.tid, Ne.symm ht])
    | @resObs t1 o1 P1 r1 h1 h2 =>
      by_cases ht : t' = t1
      · subst ht; simp at hst
      · simp only [upd_ne _ _ _ ht] at hst
        exact hdone t' o r hst (by simp [Event.tid, Ne.symm ht])
  · cases hm with
    | stay => intro i j r hr; exact hret i j r (by simpa using hr)
    | inv h1 => intro i j r hr; exact hret i j r (Returned.snoc_inv.1 hr)
    | lin h1 h2 => intro i j r hr; exact hret i j r (by simpa using hr)
    | obs h1 h2 => intro i j r hr; exact hret i j r (by simpa using hr)
    | @res t1 o1 r1 h1 =>
      refine hres t1 r1 rfl fun i o hp => ?_
      obtain ⟨i', k, h4, h5, h6, h7⟩ := hi.done _ _ _ h1
      obtain ⟨rfl, rfl⟩ := hp.unique h4
      exact ⟨k, h5, h6, h7⟩
    | @resObs t1 o1 P1 r1 h1 h2 =>
      refine hres t1 r1 rfl fun i o hp => ?_
      obtain ⟨i', k, h4, h5, h6, h7⟩ := hi.pend _ _ _ _ h1 h2
      obtain ⟨rfl, rfl⟩ := hp.unique h4
      exact ⟨k, h5, h6, h7⟩

theorem MSteps.instInv {rel : MConf S P → CState Sp → Prop} (hsim : m.SimBy ok Sp rel)
    (h0 : rel C₀ (CState.initial Sp)) (hx : MSteps m ok C₀ h C) : ∃ c, InstInv m ok Sp rel C₀ h C c := by
  induction hx with
  | refl => exact ⟨_, h0, .init, by simp [CState.initial], by simp [CState.initial], by simp [Returned]⟩
  | step hx hs hok ih => obtain ⟨c, hi⟩ := ih; exact hi.step hsim hx hs hok

/-- Every completed call took effect at an instant between its invocation and its response, as one step of the
sequential specification. -/
theorem MSteps.instant {rel : MConf S P → CState Sp → Prop} (hsim : m.SimBy ok Sp rel)
    (h0 : rel C₀ (CState.initial Sp)) (hx : MSteps m ok C₀ h C) {i j r} (hr : Returned h i j r) :
    ∃ t o k, h[i]? = some (.inv t o) ∧ i < k ∧ k ≤ j ∧ Effect m ok Sp rel C₀ h C o r k := by
  obtain ⟨c, hi⟩ := hx.instInv hsim h0
  exact hi.ret i j r hr

/-! ### A call that runs alone -/

/-- State of the canonical object while thread `t` performs `o` alone, starting with `σ` and no other call in
progress. -/
def Solo (t : Nat) (o : O) (σ : Sp.State) (h : History O R) (c : CState Sp) : Prop :=
  (∀ t', t' ≠ t → c.status t' = .idle) ∧
  ((h = [] ∧ c.status t = .idle ∧ c.st = σ) ∨
   (h = [.inv t o] ∧ ((∃ Q, c.status t = .pend o Q ∧ c.st = σ ∧ ∀ r, Q r → Sp.step σ o r σ) ∨
      ∃ r, c.status t = .done o r ∧ Sp.step σ o r c.st)) ∨
   ∃ r, h = [.inv t o, .res t r] ∧ c.status t = .idle ∧ Sp.step σ o r c.st)

theorem snoc_prefix {A : Type} {l a : List A} {x : A} (h : l ++ [x] <+: a) : l <+: a :=
  (List.prefix_append l [x]).trans h

theorem Solo.move {t : Nat} {o : O} {r₀ : R} {σ : Sp.State} {c c' : CState Sp} {e} (hsl : Solo t o σ h c)
    (hm : CMove Sp c e c') (hp : h ++ e.toList <+: [.inv t o, .res t r₀]) :
    Solo t o σ (h ++ e.toList) c' := by
  obtain ⟨h1, h2⟩ := hsl
  have hbusy : ∀ t', c.status t' ≠ .idle → t' = t := by
    intro t' h3; exact Classical.byContradiction fun h4 => h3 (h1 t' h4)
  cases hm with
  | stay => simpa using ⟨h1, h2⟩
  | @inv t' o' hid =>
    simp only [Option.toList] at hp ⊢
    rcases h2 with ⟨rfl, h3, h4⟩ | ⟨rfl, _⟩ | ⟨r, rfl, _⟩
    · have : t' = t ∧ o' = o := by
        obtain ⟨l, hl⟩ := hp; simp at hl; exact hl.1
      obtain ⟨rfl, rfl⟩ := this
      refine ⟨fun t'' ht => by simp [upd_ne _ _ _ ht, h1 t'' ht], .inr (.inl ⟨rfl, .inl ⟨_, upd_self _ _ _, h4, ?_⟩⟩)⟩
      exact fun _ h => h.elim
    · obtain ⟨l, hl⟩ := hp; simp at hl
    · obtain ⟨l, hl⟩ := hp; simp at hl
  | @lin t' o' Q r σ' hst hsp =>
    have ht := hbusy t' (by simp [hst])
    subst ht
    refine ⟨fun t'' ht => by simp [upd_ne _ _ _ ht, h1 t'' ht], ?_⟩
    rcases h2 with ⟨_, h3, _⟩ | ⟨rfl, ⟨Q', h3, h4, h5⟩ | ⟨r', h3, _⟩⟩ | ⟨_, _, h3, _⟩
    · simp [hst] at h3
    · rw [hst] at h3; cases h3
      rw [h4] at hsp
      exact .inr (.inl ⟨by simp, .inr ⟨r, by simp, hsp⟩⟩)
    · simp [hst] at h3
    · simp [hst] at h3
  | @obs t' o' Q r hst hsp =>
    have ht := hbusy t' (by simp [hst])
    subst ht
    refine ⟨fun t'' ht => by simp [upd_ne _ _ _ ht, h1 t'' ht], ?_⟩
    rcases h2 with ⟨_, h3, _⟩ | ⟨rfl, ⟨Q', h3, h4, h5⟩ | ⟨r', h3, _⟩⟩ | ⟨_, _, h3, _⟩
    · simp [hst] at h3
    · rw [hst] at h3; cases h3
      refine .inr (.inl ⟨by simp, .inl ⟨_, upd_self _ _ _, h4, ?_⟩⟩)
      rintro r' (h6 | rfl)
      · exact h5 r' h6
      · rw [h4] at hsp; exact hsp
    · simp [hst] at h3
    · simp [hst] at h3
  | @res t' o' r hst =>
    have ht := hbusy t' (by simp [hst])
    subst ht
    refine ⟨fun t'' ht => by simp [upd_ne _ _ _ ht, h1 t'' ht], ?_⟩
    rcases h2 with ⟨_, h3, _⟩ | ⟨rfl, ⟨Q', h3, h4, h5⟩ | ⟨r', h3, h4⟩⟩ | ⟨_, _, h3, _⟩
    · simp [hst] at h3
    · simp [hst] at h3
    · rw [hst] at h3; cases h3
      exact .inr (.inr ⟨r, by simp, by simp, h4⟩)
    · simp [hst] at h3
  | @resObs t' o' Q r hst hq =>
    have ht := hbusy t' (by simp [hst])
    subst ht
    refine ⟨fun t'' ht => by simp [upd_ne _ _ _ ht, h1 t'' ht], ?_⟩
    rcases h2 with ⟨_, h3, _⟩ | ⟨rfl, ⟨Q', h3, h4, h5⟩ | ⟨r', h3, h4⟩⟩ | ⟨_, _, h3, _⟩
    · simp [hst] at h3
    · rw [hst] at h3; cases h3
      refine .inr (.inr ⟨r, by simp, by simp, ?_⟩)
      simp only [h4]; exact h5 r hq
    · simp [hst] at h3
    · simp [hst] at h3

/-- Running one call of thread `t` alone from a configuration in which no call is in progress. -/
theorem MSteps.solo {rel : MConf S P → CState Sp → Prop} (hsim : m.SimBy ok Sp rel) {c : CState Sp}
    (hrel : rel C c) (hidle : ∀ t, c.status t = .idle) {t : Nat} {o : O} {r : R} {h : History O R}
    (hx : MSteps m ok C h C₁) (hp : h <+: [.inv t o, .res t r]) :
    ∃ c', rel C₁ c' ∧ Solo t o c.st h c' := by
  induction hx with
  | refl => exact ⟨c, hrel, fun t _ => hidle t, .inl ⟨rfl, hidle t, rfl⟩⟩
  | step _ hs hok ih =>
    obtain ⟨c₁, h1, h2⟩ := ih ((List.prefix_append _ _).trans hp)
    obtain ⟨c₂, h3, h4⟩ := hsim _ _ _ _ _ _ _ h1 hs hok
    exact ⟨c₂, h3, h2.move h4 hp⟩

theorem MSteps.sim {rel : MConf S P → CState Sp → Prop} (hsim : m.SimBy ok Sp rel)
    (h0 : rel C₀ (CState.initial Sp)) (hx : MSteps m ok C₀ h C) : ∃ c, rel C c ∧ CReach Sp h c := by
  obtain ⟨c, hi⟩ := hx.instInv hsim h0
  exact ⟨c, hi.hrel, hi.reach⟩

/-- A sequence of calls made by thread `t`, one after the other, while no other thread does anything. -/
inductive Mach.Seq (m : Mach S P Ch O R) (ok : S → P → Ch → Prop) (t : Nat) :
    MConf S P → List (O × R) → MConf S P → Prop where
  | nil (C₀ : MConf S P) : Mach.Seq m ok t C₀ [] C₀
  | cons {C o r C₁ l C₂} : MSteps m ok C [.inv t o, .res t r] C₁ → Mach.Seq m ok t C₁ l C₂ →
      Mach.Seq m ok t C ((o, r) :: l) C₂

end Verif
