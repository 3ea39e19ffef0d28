import Verif.Mach

/-!
# The calls of one thread

Vocabulary: the calls a thread made in a history, and what a call does while other threads run.
-/

namespace Verif
open Lin

variable {S P Ch O R : Type}

/-- The events of thread `t`. -/
def ofThread (t : Nat) (h : History O R) : History O R := h.filter fun e => e.tid == t

/-- Consecutive invocation/response pairs. -/
def pairs : History O R → List (O × R)
  | .inv _ o :: .res _ r :: l => (o, r) :: pairs l
  | _ => []

/-- The completed calls of thread `t` with their results, in the order in which it made them. -/
def callsOf (t : Nat) (h : History O R) : List (O × R) := pairs (ofThread t h)

/-- The events of completed calls `cs` made by `t` one after the other. -/
def callEvents (t : Nat) : List (O × R) → History O R
  | [] => []
  | (o, r) :: l => .inv t o :: .res t r :: callEvents t l

/-- Thread `t` made the completed calls `cs` and `last`, if any, is its pending call. -/
def Did (t : Nat) (h : History O R) (cs : List (O × R)) : Option O → Prop
  | none => ofThread t h = callEvents t cs
  | some o => ofThread t h = callEvents t cs ++ [.inv t o]

theorem callEvents_append (t : Nat) (a b : List (O × R)) :
    callEvents t (a ++ b) = callEvents t a ++ callEvents t b := by
  induction a with
  | nil => rfl
  | cons x l ih => obtain ⟨o, r⟩ := x; simp [callEvents, ih]

theorem pairs_callEvents (t : Nat) (cs : List (O × R)) (o : Option O) :
    pairs (callEvents t cs ++ (o.toList.map (.inv t))) = cs := by
  induction cs with
  | nil => cases o <;> rfl
  | cons x l ih => obtain ⟨o', r⟩ := x; simp [callEvents, pairs, ih]

theorem Did.callsOf {t : Nat} {h : History O R} {cs o} (hd : Did t h cs o) : callsOf t h = cs := by
  have := pairs_callEvents t cs o
  cases o with
  | none => simp only [Did] at hd; rw [Verif.callsOf, hd]; simpa using this
  | some o => simp only [Did] at hd; rw [Verif.callsOf, hd]; simpa using this

theorem ofThread_append (t : Nat) (a b : History O R) : ofThread t (a ++ b) = ofThread t a ++ ofThread t b :=
  List.filter_append _ _

theorem ofThread_ne {t : Nat} {e : Event O R} (h : e.tid ≠ t) : ofThread t [e] = [] := by
  simp [ofThread, h]

theorem ofThread_eq {t : Nat} {e : Event O R} (h : e.tid = t) : ofThread t [e] = [e] := by
  simp [ofThread, h]

theorem Did.nil (t : Nat) : Did t ([] : History O R) [] none := rfl

theorem Did.other {t : Nat} {h : History O R} {cs o} (hd : Did t h cs o) {e : Event O R} (he : e.tid ≠ t) :
    Did t (h ++ [e]) cs o := by
  cases o <;> simp only [Did, ofThread_append, ofThread_ne he, List.append_nil] at hd ⊢ <;> exact hd

theorem Did.inv {t : Nat} {h : History O R} {cs} (hd : Did t h cs none) (o : O) :
    Did t (h ++ [.inv t o]) cs (some o) := by
  simp only [Did, ofThread_append] at hd ⊢
  rw [hd, ofThread_eq (t := t) (e := .inv t o) rfl]

theorem Did.res {t : Nat} {h : History O R} {cs o} (hd : Did t h cs (some o)) (r : R) :
    Did t (h ++ [.res t r]) (cs ++ [(o, r)]) none := by
  simp only [Did, ofThread_append] at hd ⊢
  rw [hd, ofThread_eq (t := t) (e := .res t r) rfl, callEvents_append]
  simp [callEvents]

variable {m : Mach S P Ch O R} {ok : S → P → Ch → Prop} {C₀ C C₁ C₂ : MConf S P} {h h₁ h₂ : History O R}

/-- An execution can be cut after any number of events. -/
theorem MSteps.split (hx : MSteps m ok C₀ h C) : ∀ {h₁ h₂}, h = h₁ ++ h₂ →
    ∃ C₁, MSteps m ok C₀ h₁ C₁ ∧ MSteps m ok C₁ h₂ C := by
  induction hx with
  | refl =>
    intro h₁ h₂ he
    obtain ⟨rfl, rfl⟩ := List.append_eq_nil_iff.1 he.symm
    exact ⟨_, .refl _, .refl _⟩
  | @step h C t ch s' p' e hx hs hok ih =>
    intro h₁ h₂ he
    cases e with
    | none =>
      obtain ⟨C₁, h3, h4⟩ := ih (by simpa using he)
      exact ⟨C₁, h3, by simpa using h4.step hs hok⟩
    | some e =>
      rcases List.eq_nil_or_concat h₂ with rfl | ⟨l, a, rfl⟩
      · exact ⟨_, by have := hx.step hs hok; rw [he] at this; simpa using this, .refl _⟩
      · simp only [Option.toList, List.concat_eq_append, ← List.append_assoc] at he
        obtain ⟨he1, he2⟩ := List.append_inj' he rfl
        obtain ⟨C₁, h3, h4⟩ := ih he1
        have := h4.step hs hok
        simp only [Option.toList, he2] at this
        exact ⟨C₁, h3, by simpa using this⟩

/-- Between calls a thread stays idle. -/
def Mach.Calm (m : Mach S P Ch O R) : Prop :=
  ∀ t s ch s' p', m.step t s m.idle ch = some (s', p', none) → p' = m.idle

theorem filter_split {A : Type} {p : A → Bool} {l a b : List A} (h : l.filter p = a ++ b) :
    ∃ l₁ l₂, l = l₁ ++ l₂ ∧ l₁.filter p = a ∧ l₂.filter p = b := by
  induction l generalizing a with
  | nil => simp at h; obtain ⟨rfl, rfl⟩ := h; exact ⟨[], [], rfl, rfl, rfl⟩
  | cons x l ih =>
    cases a with
    | nil => exact ⟨[], x :: l, rfl, rfl, h⟩
    | cons y a =>
      by_cases hx : p x = true
      · rw [List.filter_cons_of_pos hx] at h
        simp at h
        obtain ⟨rfl, h⟩ := h
        obtain ⟨l₁, l₂, rfl, h2, h3⟩ := ih h
        exact ⟨x :: l₁, l₂, rfl, by simp [hx, h2], h3⟩
      · rw [List.filter_cons_of_neg hx] at h
        obtain ⟨l₁, l₂, rfl, h2, h3⟩ := ih h
        exact ⟨x :: l₁, l₂, rfl, by rw [List.filter_cons_of_neg hx]; exact h2, h3⟩

theorem MSteps.split_calls {t : Nat} {a b : History O R} (hx : MSteps m ok C₀ h C) (he : ofThread t h = a ++ b) :
    ∃ h₁ h₂ C₁, h = h₁ ++ h₂ ∧ ofThread t h₁ = a ∧ ofThread t h₂ = b ∧ MSteps m ok C₀ h₁ C₁ ∧
      MSteps m ok C₁ h₂ C := by
  obtain ⟨h₁, h₂, rfl, h3, h4⟩ := filter_split he
  obtain ⟨C₁, h5, h6⟩ := hx.split rfl
  exact ⟨h₁, h₂, C₁, rfl, h3, h4, h5, h6⟩

/-- Rule for reasoning about one call of thread `t` while other threads run: `B` holds until the invocation, `I` during the
call, `Post` from the response on. `J` is an invariant of all configurations. -/
structure CallRule (m : Mach S P Ch O R) (ok : S → P → Ch → Prop) (t : Nat) (o : O) (J : MConf S P → Prop)
    (B : S → Prop) (I : S → P → Prop) (Post : R → S → Prop) : Prop where
  inv : ∀ C t ch s' p' e, J C → m.step t C.s (C.pc t) ch = some (s', p', e) → ok C.s (C.pc t) ch →
    J ⟨s', upd C.pc t p'⟩
  before : ∀ C t' ch s' p' e, J C → m.step t' C.s (C.pc t') ch = some (s', p', e) → ok C.s (C.pc t') ch →
    (t' = t → C.pc t = m.idle ∧ e = none) → B C.s → B s'
  call : ∀ C ch s' p', J C → m.step t C.s m.idle ch = some (s', p', some (.inv t o)) → ok C.s m.idle ch →
    B C.s → I s' p'
  during : ∀ C ch s' p', J C → m.step t C.s (C.pc t) ch = some (s', p', none) → ok C.s (C.pc t) ch →
    I C.s (C.pc t) → I s' p'
  others : ∀ C t' ch s' p' e, J C → m.step t' C.s (C.pc t') ch = some (s', p', e) → ok C.s (C.pc t') ch →
    t' ≠ t → I C.s (C.pc t) → I s' (C.pc t)
  ret : ∀ C ch s' p' r, J C → m.step t C.s (C.pc t) ch = some (s', p', some (.res t r)) → ok C.s (C.pc t) ch →
    I C.s (C.pc t) → Post r s'
  after : ∀ r C t' ch s' p' e, J C → m.step t' C.s (C.pc t') ch = some (s', p', e) → ok C.s (C.pc t') ch →
    (t' = t → C.pc t = m.idle ∧ e = none) → Post r C.s → Post r s'

theorem MSteps.call_rule {t : Nat} {o : O} {J : MConf S P → Prop} {B : S → Prop} {I : S → P → Prop}
    {Post : R → S → Prop} (hl : m.Lawful) (hc : m.Calm)
    (hr : CallRule m ok t o J B I Post) (hJ : J C₁) (hB : B C₁.s)
    (hidle : C₁.pc t = m.idle) (hx : MSteps m ok C₁ h C₂) {r : R} (hp : ofThread t h <+: [.inv t o, .res t r]) :
    J C₂ ∧ ((ofThread t h = [] ∧ C₂.pc t = m.idle ∧ B C₂.s) ∨
      (ofThread t h = [.inv t o] ∧ I C₂.s (C₂.pc t)) ∨
      (ofThread t h = [.inv t o, .res t r] ∧ C₂.pc t = m.idle ∧ Post r C₂.s)) := by
  induction hx with
  | refl => exact ⟨hJ, .inl ⟨rfl, hidle, hB⟩⟩
  | @step h C t' ch s' p' e hx hs hok ih =>
    rw [ofThread_append] at hp
    obtain ⟨h1, h2⟩ := ih ((List.prefix_append _ _).trans hp)
    refine ⟨hr.inv _ _ _ _ _ _ h1 hs hok, ?_⟩
    by_cases ht : t' = t
    · subst ht
      simp only [upd_self]
      cases e with
      | none =>
        simp only [Option.toList, List.append_nil]
        rcases h2 with ⟨h3, h4, h5⟩ | ⟨h3, h4⟩ | ⟨h3, h4, h5⟩
        · refine .inl ⟨h3, hc t' C.s ch s' p' (by rw [← h4]; exact hs), hr.before _ _ _ _ _ _ h1 hs hok (fun _ => ⟨h4, rfl⟩) h5⟩
        · exact .inr (.inl ⟨h3, hr.during _ _ _ _ h1 hs hok h4⟩)
        · refine .inr (.inr ⟨h3, hc t' C.s ch s' p' (by rw [← h4]; exact hs), hr.after _ _ _ _ _ _ _ h1 hs hok (fun _ => ⟨h4, rfl⟩) h5⟩)
      | some e =>
        have htid := (hl.event hs).2
        rw [ofThread_append, Option.toList, ofThread_eq htid]
        simp only [Option.toList, ofThread_eq htid] at hp
        rcases h2 with ⟨h3, h4, h5⟩ | ⟨h3, h4⟩ | ⟨h3, h4, h5⟩
        · rw [h3] at hp ⊢
          have : e = .inv t' o := by obtain ⟨l, hl⟩ := hp; simp at hl; exact hl.1
          subst this
          exact .inr (.inl ⟨rfl, hr.call C ch s' p' h1 (by rw [← h4]; exact hs) (by rw [← h4]; exact hok) h5⟩)
        · rw [h3] at hp ⊢
          have : e = .res t' r := by obtain ⟨l, hl⟩ := hp; simp at hl; exact hl.1
          subst this
          have hid : p' = m.idle := by
            rcases hl _ _ _ _ _ _ _ hs with ⟨_, o', h6⟩ | ⟨r', _, h6, _⟩
            · cases h6
            · exact h6
          exact .inr (.inr ⟨rfl, hid, hr.ret _ _ _ _ _ h1 hs hok h4⟩)
        · rw [h3] at hp
          obtain ⟨l, hl⟩ := hp
          simp at hl
    · have he : ofThread t (h ++ e.toList) = ofThread t h := by
        rw [ofThread_append]
        cases e with
        | none => simp [ofThread]
        | some e =>
          rw [Option.toList, ofThread_ne, List.append_nil]
          rw [(hl.event hs).2]; exact ht
      rw [he]
      simp only [upd_ne _ _ _ (Ne.symm ht)]
      rcases h2 with ⟨h3, h4, h5⟩ | ⟨h3, h4⟩ | ⟨h3, h4, h5⟩
      · exact .inl ⟨h3, h4, hr.before _ _ _ _ _ _ h1 hs hok (fun h => absurd h ht) h5⟩
      · exact .inr (.inl ⟨h3, hr.others _ _ _ _ _ _ h1 hs hok ht h4⟩)
      · exact .inr (.inr ⟨h3, h4, hr.after _ _ _ _ _ _ _ h1 hs hok (fun h => absurd h ht) h5⟩)

/-- Rule for reasoning about all calls of thread `t`: `A cs s` relates the calls completed so far to the state. `B`, `I`,
`Post` are as in `CallRule`, for a call that begins in the state which is their first argument. -/
theorem MSteps.calls_rule {t : Nat} {J : MConf S P → Prop} {B : S → S → Prop} {I : S → O → S → P → Prop}
    {Post : S → O → R → S → Prop} {A : List (O × R) → S → Prop} (hl : m.Lawful) (hc : m.Calm) (hne : ∀ r, m.ret r ≠ m.idle) (o₀ : O)
    (hr : ∀ s₁ o, CallRule m ok t o J (B s₁) (I s₁ o) (Post s₁ o))
    (hI : ∀ s₁ o s, ¬ I s₁ o s m.idle) (hB : ∀ s, B s s)
    (hAB : ∀ cs s₁ s, A cs s₁ → B s₁ s → A cs s)
    (hAP : ∀ cs s₁ o r s, A cs s₁ → Post s₁ o r s → A (cs ++ [(o, r)]) s)
    (hJ : J C₁) (hA : A [] C₁.s) (hidle : C₁.pc t = m.idle) (hx : MSteps m ok C₁ h C₂) :
    J C₂ ∧ ((C₂.pc t = m.idle ∧ ∃ cs, Did t h cs none ∧ A cs C₂.s) ∨
      ∃ cs o s₁, Did t h cs (some o) ∧ A cs s₁ ∧ I s₁ o C₂.s (C₂.pc t)) := by
  induction hx with
  | refl => exact ⟨hJ, .inl ⟨hidle, [], .nil t, hA⟩⟩
  | @step h C t' ch s' p' e hx hs hok ih =>
    obtain ⟨h1, h2⟩ := ih
    refine ⟨(hr C.s o₀).inv _ _ _ _ _ _ h1 hs hok, ?_⟩
    by_cases ht : t' = t
    · subst ht
      simp only [upd_self]
      cases e with
      | none =>
        simp only [Option.toList, List.append_nil]
        rcases h2 with ⟨h3, cs, h4, h5⟩ | ⟨cs, o, s₁, h3, h4, h5⟩
        · exact .inl ⟨hc t' C.s ch s' p' (by rw [← h3]; exact hs), cs, h4, hAB _ _ _ h5
            ((hr C.s o₀).before _ _ _ _ _ _ h1 hs hok (fun _ => ⟨h3, rfl⟩) (hB _))⟩
        · exact .inr ⟨cs, o, s₁, h3, h4, (hr s₁ o).during _ _ _ _ h1 hs hok h5⟩
      | some e =>
        rcases hl _ _ _ _ _ _ _ hs with ⟨h6, o', h7⟩ | ⟨r', h6, h7, h8⟩
        · cases h7
          rcases h2 with ⟨h3, cs, h4, h5⟩ | ⟨cs, o, s₁, h3, h4, h5⟩
          · exact .inr ⟨cs, o', C.s, h4.inv o', h5,
              (hr C.s o').call _ _ _ _ h1 (by rw [← h3]; exact hs) (by rw [← h3]; exact hok) (hB _)⟩
          · rw [h6] at h5; exact absurd h5 (hI _ _ _)
        · cases h8
          rcases h2 with ⟨h3, cs, h4, h5⟩ | ⟨cs, o, s₁, h3, h4, h5⟩
          · exact absurd (h6.symm.trans h3) (hne _)
          · exact .inl ⟨h7, cs ++ [(o, r')], h3.res r', hAP _ _ _ _ _ h4 ((hr s₁ o).ret _ _ _ _ _ h1 hs hok h5)⟩
    · have he : ∀ cs o, Did t h cs o → Did t (h ++ e.toList) cs o := by
        intro cs o hd
        cases e with
        | none => simpa using hd
        | some e => exact hd.other (by rw [(hl.event hs).2]; exact ht)
      simp only [upd_ne _ _ _ (Ne.symm ht)]
      rcases h2 with ⟨h3, cs, h4, h5⟩ | ⟨cs, o, s₁, h3, h4, h5⟩
      · exact .inl ⟨h3, cs, he _ _ h4, hAB _ _ _ h5
          ((hr C.s o₀).before _ _ _ _ _ _ h1 hs hok (fun h => absurd h ht) (hB _))⟩
      · exact .inr ⟨cs, o, s₁, he _ _ h3, h4, (hr s₁ o).others _ _ _ _ _ _ h1 hs hok ht h5⟩

/-! ### Counting steps -/

/-- The machine `m` with a step counter beside its state: a step of thread `t` with choice `ch` counts `w t ch`. -/
def Mach.count (m : Mach S P Ch O R) (w : Nat → Ch → Nat) : Mach (S × Nat) P Ch O R where
  step t s p ch := (m.step t s.1 p ch).map fun x => ((x.1, s.2 + w t ch), x.2.1, x.2.2)
  idle := m.idle
  ret := m.ret

theorem Mach.count_step {w : Nat → Ch → Nat} {t s p ch s' p' e} (h : (m.count w).step t s p ch = some (s', p', e)) :
    m.step t s.1 p ch = some (s'.1, p', e) ∧ s'.2 = s.2 + w t ch := by
  simp only [Mach.count, Option.map_eq_some_iff, Prod.mk.injEq, Prod.exists] at h
  obtain ⟨a, b, c, h1, rfl, rfl, rfl⟩ := h
  exact ⟨h1, rfl⟩

theorem Mach.Lawful.count {w : Nat → Ch → Nat} (hl : m.Lawful) : (m.count w).Lawful :=
  fun _ _ _ _ _ _ _ hs => hl _ _ _ _ _ _ _ (Mach.count_step hs).1

theorem Mach.Calm.count {w : Nat → Ch → Nat} (hl : m.Calm) : (m.count w).Calm :=
  fun _ _ _ _ _ hs => hl _ _ _ _ _ (Mach.count_step hs).1

theorem MSteps.uncount {w : Nat → Ch → Nat} {C C' : MConf (S × Nat) P}
    (hx : MSteps (m.count w) (fun s => ok s.1) C h C') : MSteps m ok ⟨C.s.1, C.pc⟩ h ⟨C'.s.1, C'.pc⟩ := by
  induction hx with
  | refl => exact .refl _
  | step _ hs hok ih => exact .step ih (Mach.count_step hs).1 hok

/-- A rule for counting the steps of a call: `K p n`, at PC `p` at most `n` steps were made; `L r n`, with result `r` at
most `n` steps were made. -/
theorem CallRule.count {w : Nat → Ch → Nat} {t : Nat} {o : O} {J : MConf S P → Prop} {B : S → Prop}
    {I : S → P → Prop} {Post : R → S → Prop} {K : P → Nat → Prop} {L : R → Nat → Prop} {n₁ : Nat}
    (hr : CallRule m ok t o J B I Post) (hw : ∀ t' ch, t' ≠ t → w t' ch = 0)
    (hidle : ∀ s ch s' p', m.step t s m.idle ch = some (s', p', none) → w t ch = 0)
    (hcall : ∀ s ch s' p', m.step t s m.idle ch = some (s', p', some (.inv t o)) → K p' (n₁ + w t ch))
    (hdur : ∀ C ch s' p' n, J C → m.step t C.s (C.pc t) ch = some (s', p', none) → ok C.s (C.pc t) ch →
      I C.s (C.pc t) → I s' p' → K (C.pc t) n → K p' (n + w t ch))
    (hret : ∀ C ch s' p' r n, J C → m.step t C.s (C.pc t) ch = some (s', p', some (.res t r)) →
      I C.s (C.pc t) → K (C.pc t) n → L r (n + w t ch)) :
    CallRule (m.count w) (fun s => ok s.1) t o (fun C => J ⟨C.s.1, C.pc⟩) (fun s => B s.1 ∧ s.2 = n₁)
      (fun s p => I s.1 p ∧ K p s.2) (fun r s => Post r s.1 ∧ L r s.2) where
  inv C t ch s' p' e hJ hs hok := hr.inv _ _ _ _ _ _ hJ (Mach.count_step hs).1 hok
  before C t' ch s' p' e hJ hs hok ht hB := by
    obtain ⟨h1, h2⟩ := Mach.count_step hs
    refine ⟨hr.before _ _ _ _ _ _ hJ h1 hok ht hB.1, ?_⟩
    rw [h2, hB.2]
    by_cases htt : t' = t
    · subst htt
      obtain ⟨h3, rfl⟩ := ht rfl
      have h3 : C.pc t' = m.idle := h3
      rw [h3] at h1
      rw [hidle _ _ _ _ h1, Nat.add_zero]
    · rw [hw _ _ htt, Nat.add_zero]
  call C ch s' p' hJ hs hok hB := by
    obtain ⟨h1, h2⟩ := Mach.count_step hs
    refine ⟨hr.call _ _ _ _ hJ h1 hok hB.1, ?_⟩
    rw [h2, hB.2]; exact hcall _ _ _ _ h1
  during C ch s' p' hJ hs hok hI := by
    obtain ⟨h1, h2⟩ := Mach.count_step hs
    have h3 := hr.during _ _ _ _ hJ h1 hok hI.1
    exact ⟨h3, by rw [h2]; exact hdur _ _ _ _ _ hJ h1 hok hI.1 h3 hI.2⟩
  others C t' ch s' p' e hJ hs hok ht hI := by
    obtain ⟨h1, h2⟩ := Mach.count_step hs
    exact ⟨hr.others _ _ _ _ _ _ hJ h1 hok ht hI.1, by rw [h2, hw _ _ ht]; exact hI.2⟩
  ret C ch s' p' r hJ hs hok hI := by
    obtain ⟨h1, h2⟩ := Mach.count_step hs
    exact ⟨hr.ret _ _ _ _ _ hJ h1 hok hI.1, by rw [h2]; exact hret _ _ _ _ _ _ hJ h1 hI.1 hI.2⟩
  after r C t' ch s' p' e hJ hs hok ht hB := by
    obtain ⟨h1, h2⟩ := Mach.count_step hs
    refine ⟨hr.after _ _ _ _ _ _ _ hJ h1 hok ht hB.1, ?_⟩
    by_cases htt : t' = t
    · subst htt
      obtain ⟨h3, rfl⟩ := ht rfl
      have h3 : C.pc t' = m.idle := h3
      rw [h3] at h1
      rw [h2, hidle _ _ _ _ h1]; exact hB.2
    · rw [h2, hw _ _ htt]; exact hB.2

end Verif
