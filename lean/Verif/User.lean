import Verif.ExampleEnd

/-!
# Programs that use a container

A client program has shared variables of its own and makes calls of a container machine. `mach` executes it; the calls then form an execution of the container
(`Runs.base`). No code of /repo is modelled here.
-/

namespace Verif.User
open Lin
open Verif.Example (quiet strip_tid)

variable {S P G K Ch O R O' R' : Type}

/-- A program: at some places it calls the container, with the given choice, and goes on depending on the result; at other places it acts on its variables, and
synchronises by steps of the container machine. The `Bool` resolves nondeterminism. -/
structure Script (G K Ch R : Type) where
  calls : K → Option Ch
  next : K → R → K
  act : Nat → G → K → Bool → Option (G × List Ch × K)

/-- Outside the container, or in a call made at `k`. -/
inductive PC (K P : Type) where
  | at (k : K)
  | call (k : K) (p : P)

/-- Where a thread is, in a call or not. -/
def PC.here {K P : Type} : PC K P → K
  | .at k | .call k _ => k

inductive Choice (Ch : Type) where
  | go (b : Bool)
  | inner (ch : Ch)

/-- The program. -/
def mach (m : Mach S P Ch O R) (c : Script G K Ch R) (k₀ : K) : Mach (S × G) (PC K P) (Choice Ch) O R where
  step t σ
    | .at k, .go b =>
      match c.calls k with
      | some ch => (m.step t σ.1 m.idle ch).map fun y => ((y.1, σ.2), .call k y.2.1, y.2.2)
      | none => (c.act t σ.2 k b).bind fun y => (quiet m t σ.1 y.2.1).map fun s => ((s, y.1), .at y.2.2, none)
    | .call k p, .inner ch =>
      match m.step t σ.1 p ch with
      | none => none
      | some (s', _, some (.res u r)) => some ((s', σ.2), .at (c.next k r), some (.res u r))
      | some (s', p', e) => some ((s', σ.2), .call k p', e)
    | _, _ => none
  idle := .at k₀
  ret _ := .at k₀

/-- The steps of the container satisfy `ok`. -/
def okBy (m : Mach S P Ch O R) (c : Script G K Ch R) (ok : S → P → Ch → Prop) (σ : S × G) : PC K P → Choice Ch → Prop
  | .at k, .go _ => ∀ ch, c.calls k = some ch → ok σ.1 m.idle ch
  | .call _ p, .inner ch => ok σ.1 p ch
  | _, _ => True

/-- Executions of the program, from the state `s` of the container, with the variables `g` and all threads at their beginnings. -/
abbrev Runs (m : Mach S P Ch O R) (c : Script G K Ch R) (k₀ : K) (ok : S → P → Ch → Prop) (s : S) (g : G) (start : Nat → K)
    (h : History O R) (C : MConf (S × G) (PC K P)) : Prop :=
  MSteps (mach m c k₀) (okBy m c ok) ⟨(s, g), fun t => .at (start t)⟩ h C

/-- PC in the container. -/
def pcOf (m : Mach S P Ch O R) : PC K P → P
  | .at _ => m.idle
  | .call _ p => p

/-- The configuration of the container. -/
def baseOf (m : Mach S P Ch O R) (C : MConf (S × G) (PC K P)) : MConf S P := ⟨C.s.1, fun t => pcOf m (C.pc t)⟩

/-- What is assumed about the container machine. -/
structure Plays (m : Mach S P Ch O R) (c : Script G K Ch R) (ok : S → P → Ch → Prop) : Prop where
  /-- the choices for calls make calls -/
  call : ∀ k ch, c.calls k = some ch → ∀ t s s' p' e, m.step t s m.idle ch = some (s', p', e) → p' ≠ m.idle ∧ ∃ o, e = some (.inv t o)
  /-- a call ends by a response, and has no other event -/
  step : ∀ t s p ch s' p' e, p ≠ m.idle → m.step t s p ch = some (s', p', e) → (e = none ∧ p' ≠ m.idle) ∨ ∃ r, e = some (.res t r) ∧ p' = m.idle
  /-- synchronisation is no call -/
  sync : ∀ t g k b y, c.act t g k b = some y → ∀ ch ∈ y.2.1, ∀ s, ok s m.idle ch ∧ ∀ t s' p' e, m.step t s m.idle ch = some (s', p', e) → e = none ∧ p' = m.idle

/-- Steps of the program, as a relation. -/
inductive Trans (m : Mach S P Ch O R) (c : Script G K Ch R) (t : Nat) (s : S) (g : G) : PC K P → Choice Ch → S → G → PC K P → Option (Event O R) → Prop where
  | call {k b ch s' p' e} : c.calls k = some ch → m.step t s m.idle ch = some (s', p', e) → Trans m c t s g (.at k) (.go b) s' g (.call k p') e
  | act {k b g' l k' s'} : c.calls k = none → c.act t g k b = some (g', l, k') → quiet m t s l = some s' → Trans m c t s g (.at k) (.go b) s' g' (.at k') none
  | inside {k p ch s' p' e} : m.step t s p ch = some (s', p', e) → (∀ u r, e ≠ some (.res u r)) → Trans m c t s g (.call k p) (.inner ch) s' g (.call k p') e
  | finish {k p ch s' p' u r} : m.step t s p ch = some (s', p', some (.res u r)) →
      Trans m c t s g (.call k p) (.inner ch) s' g (.at (c.next k r)) (some (.res u r))

variable {m : Mach S P Ch O R} {c : Script G K Ch R} {k₀ : K} {ok : S → P → Ch → Prop}

theorem trans_of_step {t : Nat} {σ σ' : S × G} {p p' ch e} (hs : (mach m c k₀).step t σ p ch = some (σ', p', e)) : Trans m c t σ.1 σ.2 p ch σ'.1 σ'.2 p' e := by
  simp only [mach] at hs
  split at hs
  · split at hs
    · rename_i h1
      simp only [Option.map_eq_some_iff] at hs
      obtain ⟨⟨a, b, d⟩, h2, h3⟩ := hs
      cases h3
      exact .call h1 h2
    · rename_i h1
      simp only [Option.bind_eq_some_iff, Option.map_eq_some_iff] at hs
      obtain ⟨⟨a, b, d⟩, h2, s, h3, h4⟩ := hs
      cases h4
      exact .act h1 h2 h3
  · split at hs
    · cases hs
    · rename_i h1; cases hs; exact .finish h1
    · rename_i h1 h2
      cases hs
      exact .inside h2 (fun u r he => by subst he; simp_all)
  · cases hs

theorem quiet_steps {t : Nat} {C : MConf S P} (hC : C.pc t = m.idle) {l : List Ch}
    (hl : ∀ ch ∈ l, ∀ s, ok s m.idle ch ∧ ∀ t s' p' e, m.step t s m.idle ch = some (s', p', e) → e = none ∧ p' = m.idle) {s'}
    (hq : quiet m t C.s l = some s') : MSteps m ok C [] ⟨s', C.pc⟩ := by
  induction l generalizing C with
  | nil => cases hq; exact .refl _
  | cons ch l ih =>
    simp only [quiet] at hq
    split at hq
    · rename_i s₁ p₁ h1
      obtain ⟨_, rfl⟩ := (hl ch (by simp) _).2 _ _ _ _ h1
      have h2 : MSteps m ok C ([] ++ (none : Option (Event O R)).toList) ⟨s₁, upd C.pc t m.idle⟩ :=
        .step (.refl _) (by rw [hC]; exact h1) (by rw [hC]; exact (hl ch (by simp) _).1)
      rw [← hC, upd_eq_self C.pc t] at h2
      exact h2.trans (ih hC (fun ch h => hl ch (by simp [h])) hq)
    · cases hq

theorem base_upd (C : MConf (S × G) (PC K P)) (t : Nat) (σ' : S × G) (p' : PC K P) :
    baseOf m ⟨σ', upd C.pc t p'⟩ = ⟨σ'.1, upd (fun u => pcOf m (C.pc u)) t (pcOf m p')⟩ := by
  simp only [baseOf]
  congr 1
  funext u
  simp only [upd_apply]
  split <;> rfl

/-- A step of the program is a sequence of steps of the container. -/
theorem base_step (hpl : Plays m c ok) {C : MConf (S × G) (PC K P)} (hb : ∀ t k p, C.pc t = .call k p → p ≠ m.idle) {t ch σ' p' e}
    (hs : (mach m c k₀).step t C.s (C.pc t) ch = some (σ', p', e)) (hok : okBy m c ok C.s (C.pc t) ch) :
    MSteps m ok (baseOf m C) e.toList (baseOf m ⟨σ', upd C.pc t p'⟩) := by
  have hs' := trans_of_step hs
  rw [base_upd]
  generalize hp : C.pc t = p at hs' hok
  have h1 : (baseOf m C).pc t = pcOf m p := by simp only [baseOf]; rw [hp]
  have hstep : ∀ {ch s' p' e}, m.step t C.s.1 (pcOf m p) ch = some (s', p', e) → ok C.s.1 (pcOf m p) ch →
      MSteps m ok (baseOf m C) e.toList ⟨s', upd (fun u => pcOf m (C.pc u)) t p'⟩ := by
    intro ch s' p' e h2 h3
    have := MSteps.step (MSteps.refl (m := m) (ok := ok) (baseOf m C)) (t := t) (by rw [h1]; exact h2) (by rw [h1]; exact h3)
    rw [List.nil_append] at this
    exact this
  obtain ⟨s₂, g₂⟩ := σ'
  simp only at hs'
  cases hs' with
  | call h h2 => exact hstep h2 (hok _ h)
  | act _ h h2 =>
    have := quiet_steps (C := baseOf m C) h1 (hpl.sync _ _ _ _ _ h) h2
    have h3 : upd (fun u => pcOf m (C.pc u)) t m.idle = (baseOf m C).pc := by
      have h4 := upd_eq_self (baseOf m C).pc t
      rw [h1] at h4
      exact h4
    show MSteps m ok (baseOf m C) [] ⟨_, upd (fun u => pcOf m (C.pc u)) t m.idle⟩
    rw [h3]; exact this
  | inside h => exact hstep h hok
  | @finish a p ch s' p' u r h =>
    have h3 : p' = m.idle := by
      rcases hpl.step _ _ _ _ _ _ _ (hb t _ _ hp) h with ⟨h, _⟩ | ⟨_, _, h⟩
      · cases h
      · exact h
    subst h3
    exact hstep h hok

/-! ### Calls -/

/-- The calls made by the program, as they appear in the specification. -/
structure Reads (m : Mach S P Ch O R) (c : Script G K Ch R) (so : O → O') (op : K → O') : Prop where
  call : ∀ k ch, c.calls k = some ch → ∀ t s s' p' e, m.step t s m.idle ch = some (s', p', e) → ∃ o, e = some (.inv t o) ∧ so o = op k

/-- What holds of the calls in any program. -/
structure Tidy (m : Mach S P Ch O R) (c : Script G K Ch R) (op : K → O') (b : History O' R') (C : MConf (S × G) (PC K P)) : Prop where
  busy : ∀ t k p, C.pc t = .call k p → p ≠ m.idle ∧ c.calls k ≠ none ∧ ∃ i, Pending b t i (op k)
  rest : ∀ t k, C.pc t = .at k → ∀ i o, ¬ Pending b t i o
  split : ∀ (i t : Nat) (o : O'), b[i]? = some (.inv t o) → Pending b t i o ∨ ∃ j r, Returned b i j r

variable {op : K → O'} {so : O → O'} {sr : R → R'} {h : History O R} {C : MConf (S × G) (PC K P)} {s : S} {g : G} {start : Nat → K}

theorem pending_unsnoc {b : History O' R'} {e : Event O' R'} {u i : Nat} {o : O'} (hp : Pending (b ++ [e]) u i o) (hne : e.tid ≠ u) : Pending b u i o := by
  have h1 := lt_of_getElem? hp.1
  simp at h1
  by_cases h2 : i < b.length
  · exact (hp.unsnoc h2).1
  · have h3 := hp.1
    have : i = b.length := by omega
    subst this
    simp at h3
    subst h3
    exact absurd rfl hne

theorem pending_snoc_inv {b : History O' R'} {t : Nat} {o : O'} : Pending (b ++ [.inv t o]) t b.length o := by
  refine ⟨by simp, fun j e hj he => ?_⟩
  have := lt_of_getElem? he
  simp at this; omega

theorem pending_snoc_eq {b : History O' R'} {e : Event O' R'} {t i : Nat} {o : O'} (hp : Pending (b ++ [e]) t i o) (ht : e.tid = t) :
    i = b.length ∧ e = .inv t o := by
  have h1 := lt_of_getElem? hp.1
  simp at h1
  by_cases h2 : i < b.length
  · exact absurd ht (hp.unsnoc h2).2
  · have h3 := hp.1
    have : i = b.length := by omega
    subst this
    simp at h3
    exact ⟨rfl, h3⟩

theorem Tidy.step (hpl : Plays m c ok) (hrd : Reads m c so op) (hi : Tidy m c op (h.map (Example.strip so sr)) C) {t ch σ' p' e}
    (hs : (mach m c k₀).step t C.s (C.pc t) ch = some (σ', p', e)) : Tidy m c op ((h ++ e.toList).map (Example.strip so sr)) ⟨σ', upd C.pc t p'⟩ := by
  have hs' := trans_of_step hs
  obtain ⟨s₂, g₂⟩ := σ'
  simp only at hs'
  -- steps without event
  have silent : e = none → ((∃ k k', C.pc t = .at k ∧ p' = .at k') ∨ ∃ k p q, C.pc t = .call k p ∧ p' = .call k q ∧ q ≠ m.idle) →
      Tidy m c op ((h ++ e.toList).map (Example.strip so sr)) ⟨(s₂, g₂), upd C.pc t p'⟩ := by
    rintro rfl hsh
    simp only [Option.toList_none, List.append_nil]
    refine ⟨fun u k p hp => ?_, fun u k hp => ?_, hi.split⟩
    · by_cases hu : u = t
      · subst hu
        simp only [upd_self] at hp
        subst hp
        rcases hsh with ⟨_, _, _, h⟩ | ⟨_, _, _, h1, h2, h3⟩
        · cases h
        · cases h2; exact ⟨h3, (hi.busy u _ _ h1).2⟩
      · simp only [upd_ne _ _ _ hu] at hp; exact hi.busy u _ _ hp
    · by_cases hu : u = t
      · subst hu
        simp only [upd_self] at hp
        subst hp
        rcases hsh with ⟨_, _, h1, _⟩ | ⟨_, _, _, _, h, _⟩
        · exact hi.rest u _ h1
        · cases h
      · simp only [upd_ne _ _ _ hu] at hp; exact hi.rest u _ hp
  generalize hp : C.pc t = p at hs' silent
  cases hs' with
  | @call k b ch s' q e hk h1 =>
    obtain ⟨o, rfl, ho⟩ := hrd.call _ _ hk _ _ _ _ _ h1
    obtain ⟨hq, _⟩ := hpl.call _ _ hk _ _ _ _ _ h1
    simp only [Option.toList_some, List.map_append, List.map_cons, List.map_nil, Example.strip, ho]
    refine ⟨fun u k p hp' => ?_, fun u k hp' => ?_, fun i u o' hio => ?_⟩
    · by_cases hu : u = t
      · subst hu
        simp only [upd_self] at hp'
        cases hp'
        exact ⟨hq, by rw [hk]; simp, _, pending_snoc_inv⟩
      · simp only [upd_ne _ _ _ hu] at hp'
        obtain ⟨h2, h3, i, h4⟩ := hi.busy u _ _ hp'
        exact ⟨h2, h3, i, h4.snoc_ne (by simp [Event.tid, Ne.symm hu])⟩
    · by_cases hu : u = t
      · subst hu
        simp only [upd_self] at hp'
        cases hp'
      · simp only [upd_ne _ _ _ hu] at hp'
        intro i o' hpe
        exact hi.rest u _ hp' _ _ (pending_unsnoc hpe (by simp [Event.tid, Ne.symm hu]))
    · rw [getElem?_snoc] at hio
      split at hio
      · rename_i hlt
        rcases hi.split i u o' hio with h2 | ⟨j, r, h2⟩
        · refine .inl (h2.snoc_ne ?_)
          simp only [Event.tid]
          rintro rfl
          exact hi.rest _ _ hp _ _ h2
        · exact .inr ⟨j, r, h2.snoc⟩
      · split at hio
        · rename_i hl
          subst hl
          cases hio
          exact .inl pending_snoc_inv
        · cases hio
  | act _ _ _ => exact silent rfl (.inl ⟨_, _, rfl, rfl⟩)
  | inside h1 h2 =>
    rcases hpl.step _ _ _ _ _ _ _ (hi.busy t _ _ hp).1 h1 with ⟨rfl, h3⟩ | ⟨r, rfl, _⟩
    · exact silent rfl (.inr ⟨_, _, _, rfl, rfl, h3⟩)
    · exact absurd rfl (h2 _ _)
  | @finish k p ch s' q u r h1 =>
    obtain ⟨hq, _, i, hpe⟩ := hi.busy t _ _ hp
    have hu : u = t := by
      rcases hpl.step _ _ _ _ _ _ _ hq h1 with ⟨h3, _⟩ | ⟨r, h3, _⟩
      · cases h3
      · cases h3; rfl
    subst hu
    simp only [Option.toList_some, List.map_append, List.map_cons, List.map_nil, Example.strip]
    refine ⟨fun w k p hp' => ?_, fun w k hp' => ?_, fun i' w o' hio => ?_⟩
    · by_cases hu : w = u
      · subst hu
        simp only [upd_self] at hp'
        cases hp'
      · simp only [upd_ne _ _ _ hu] at hp'
        obtain ⟨h2, h3, i, h4⟩ := hi.busy w _ _ hp'
        exact ⟨h2, h3, i, h4.snoc_ne (by simp [Event.tid, Ne.symm hu])⟩
    · intro i' o' hpe'
      by_cases hu : w = u
      · subst hu
        have := (pending_snoc_eq hpe' rfl).2
        cases this
      · simp only [upd_ne _ _ _ hu] at hp'
        exact hi.rest w _ hp' _ _ (pending_unsnoc hpe' (by simp [Event.tid, Ne.symm hu]))
    · rw [getElem?_snoc] at hio
      split at hio
      · rcases hi.split i' w o' hio with h2 | ⟨j, r', h2⟩
        · by_cases hw : w = u
          · subst hw
            obtain ⟨rfl, rfl⟩ := hpe.unique h2
            exact .inr ⟨_, _, hpe.returned _⟩
          · exact .inl (h2.snoc_ne (by simp [Event.tid, Ne.symm hw]))
        · exact .inr ⟨j, r', h2.snoc⟩
      · split at hio <;> cases hio

theorem Runs.tidy (hpl : Plays m c ok) (hrd : Reads m c so op) (hx : Runs m c k₀ ok s g start h C) : Tidy m c op (h.map (Example.strip so sr)) C := by
  induction hx with
  | refl =>
    refine ⟨nofun, fun t k _ i o hp => ?_, fun i t o h => by simp at h⟩
    have := hp.1
    simp at this
  | @step h C t ch σ' p' e hx hs hok ih => exact ih.step hpl hrd hs

/-- **The calls of the container form an execution of the container.** -/
theorem Runs.base (hpl : Plays m c ok) (hrd : Reads m c so op) (hx : Runs m c k₀ ok s g start h C) : MSteps m ok ⟨s, fun _ => m.idle⟩ h (baseOf m C) := by
  induction hx with
  | refl => exact .refl _
  | @step h C t ch σ' p' e hx hs hok ih =>
    have := Runs.tidy (sr := id) hpl hrd hx
    exact ih.trans (base_step hpl (fun t k p hp => (this.busy t k p hp).1) hs hok)

/-- The machine of a program text: a call is a choice `call`. -/
theorem text_plays {L : Type} (p : Text.Program S L Ch O R) {okc : S → O → Prop} {c : Script G K (Text.TChoice Ch O) R}
    (hcall : ∀ k ch, c.calls k = some ch → ∃ o, ch = .call o) (hsync : ∀ t g k b y, c.act t g k b = some y → y.2.1 = []) :
    Plays p.mach c (Text.Program.ok okc) where
  call k ch hk t s s' p' e h := by
    obtain ⟨o, rfl⟩ := hcall k ch hk
    simp only [Text.Program.mach, Option.map_eq_some_iff] at h
    obtain ⟨y, _, h⟩ := h
    cases h
    exact ⟨by simp [Text.Program.mach], _, rfl⟩
  step t s q ch s' q' e hq h := Example.text_step p hq h
  sync t g k b y h ch hch := by rw [hsync t g k b y h] at hch; simp at hch

end Verif.User
