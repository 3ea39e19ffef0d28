import Verif.Client
import Verif.Calls

/-!
# Routines built from calls: instants, sequential use, counting

Proof device: the machine with routines seen as a machine that produces the events of the container only and records its trace.
-/

namespace Verif
open Lin

variable {S P Ch O R CO CR L : Type} {m : Mach S P Ch O R} {rt : Routine O R CO CR L} {call : O → Ch}
  {ok : S → P → Ch → Prop} {C₀ C C₁ C₂ : MConf S (CPC P CR L)} {tr tr₁ tr₂ : Trace O R CO CR} {Sp : Spec O R}

/-- The machine with routines, showing only the events of the container; the state records the trace. -/
def Mach.view (m : Mach S P Ch O R) (rt : Routine O R CO CR L) (call : O → Ch) :
    Mach (S × Trace O R CO CR) (CPC P CR L) (CChoice Ch CO) O R where
  step t s p ch := ((m.client rt call).step t s.1 p ch).map fun x => ((x.1, s.2 ++ x.2.2.toList), x.2.1, x.2.2.bind inner?)
  idle := .out
  ret := fun _ => .out

/-- The condition on steps, for `view`. -/
def viewOk (m : Mach S P Ch O R) (rt : Routine O R CO CR L) (call : O → Ch) (ok : S → P → Ch → Prop)
    (s : S × Trace O R CO CR) (p : CPC P CR L) (ch : CChoice Ch CO) : Prop := clientOk m rt call ok s.1 p ch

/-- Forget the recorded trace. -/
def unview (C : MConf (S × Trace O R CO CR) (CPC P CR L)) : MConf S (CPC P CR L) := ⟨C.s.1, C.pc⟩

theorem bind_inner_toList (e : Option (Event (CO ⊕ O) (CR ⊕ R))) : (e.bind inner?).toList = inner e.toList := by
  cases e with
  | none => rfl
  | some e => simp [inner, List.filterMap_cons]; cases inner? e <;> rfl

theorem MSteps.view (hx : MSteps (m.client rt call) (clientOk m rt call ok) C₀ tr C) :
    MSteps (m.view rt call) (viewOk m rt call ok) ⟨(C₀.s, []), C₀.pc⟩ (Verif.inner tr) ⟨(C.s, tr), C.pc⟩ := by
  induction hx with
  | refl => exact .refl _
  | @step tr C t ch s' p' e hx hs hok ih =>
    rw [inner_append, ← bind_inner_toList]
    refine .step (C := ⟨(C.s, tr), C.pc⟩) (t := t) (ch := ch) ih ?_ hok
    simp only [Mach.view, hs, Option.map_some]

theorem MSteps.unview {X Y : MConf (S × Trace O R CO CR) (CPC P CR L)} {h : History O R}
    (hx : MSteps (m.view rt call) (viewOk m rt call ok) X h Y) :
    ∃ tr, Y.s.2 = X.s.2 ++ tr ∧ Verif.inner tr = h ∧
      MSteps (m.client rt call) (clientOk m rt call ok) (Verif.unview X) tr (Verif.unview Y) := by
  induction hx with
  | refl => exact ⟨[], by simp, rfl, .refl _⟩
  | @step h Y t ch s' p' e hx hs hok ih =>
    obtain ⟨tr, h1, h2, h3⟩ := ih
    simp only [Mach.view, Option.map_eq_some_iff] at hs
    obtain ⟨⟨s₁, p₁, e₁⟩, hs, he⟩ := hs
    cases he
    refine ⟨tr ++ e₁.toList, by simp [h1], by rw [inner_append, h2, bind_inner_toList], ?_⟩
    exact .step (C := Verif.unview Y) h3 hs hok

theorem view_sim (hm : m.Callable call) {rel : MConf S P → CState Sp → Prop} (hsim : m.SimBy ok Sp rel) :
    (m.view rt call).SimBy (viewOk m rt call ok) Sp fun C c => rel (m.base (unview C)) c := by
  intro C c t ch s' p' e hr hs hok
  simp only [Mach.view, Option.map_eq_some_iff] at hs
  obtain ⟨⟨s₁, p₁, e₁⟩, hs, he⟩ := hs
  cases he
  rcases base_step (C := unview C) hm hs hok with ⟨h1, h2⟩ | ⟨ch', q', f, h1, h2, h3, h4⟩
  · refine ⟨c, by simp only [unview] at h1 ⊢; rw [h1]; exact hr, ?_⟩
    have : e₁.bind inner? = none := by
      rw [← bind_inner_toList] at h2
      cases h : e₁.bind inner? with
      | none => rfl
      | some x => rw [h] at h2; cases h2
    rw [this]; exact .stay _
  · obtain ⟨c', h5, h6⟩ := hsim _ _ _ _ _ _ _ hr h1 h2
    refine ⟨c', by simp only [unview] at h3 ⊢; rw [h3]; exact h5, ?_⟩
    have : e₁.bind inner? = f := by
      rw [← bind_inner_toList] at h4
      cases h : e₁.bind inner? <;> cases f <;> rw [h] at h4 <;> simp_all
    rw [this]; exact h6

/-- Thread `t` makes the call `o` of the container at position `a`; it returns `r` at position `b`. -/
def InnerCall (tr : Trace O R CO CR) (t a b : Nat) (o : O) (r : R) : Prop :=
  a < b ∧ tr[a]? = some (.inv t (.inr o)) ∧ tr[b]? = some (.res t (.inr r)) ∧
    ∀ k e, a < k → k < b → tr[k]? = some e → e.tid = t → inner? e = none

theorem inner_take_le {a b : Nat} (hab : a ≤ b) : (inner (tr.take a)).length ≤ (inner (tr.take b)).length := by
  have h : tr.take b = tr.take a ++ (tr.take b).drop a := by
    conv => lhs; rw [← List.take_append_drop a (tr.take b)]
    rw [List.take_take, Nat.min_eq_left hab]
  rw [h, inner_append]; simp

theorem inner_at {a : Nat} {e : Event (CO ⊕ O) (CR ⊕ R)} {f : Event O R} (h : tr[a]? = some e) (hf : inner? e = some f) :
    (inner tr)[(inner (tr.take a)).length]? = some f ∧ (inner (tr.take (a + 1))).length = (inner (tr.take a)).length + 1 := by
  have h1 : tr = tr.take a ++ e :: tr.drop (a + 1) := by
    obtain ⟨h, rfl⟩ := List.getElem?_eq_some_iff.1 h
    simp
  have h2 : tr.take (a + 1) = tr.take a ++ [e] := by rw [List.take_add_one, h]; rfl
  refine ⟨?_, by rw [h2, inner_append]; simp [inner, hf]⟩
  have h3 : inner tr = inner (tr.take a) ++ f :: inner (tr.drop (a + 1)) := by
    conv => lhs; rw [h1]
    rw [inner_append]; simp [inner, hf]
  rw [h3]; simp

/-- Positions of the events of the container in the trace. -/
theorem inner_from {k : Nat} {f : Event O R} (h : (inner tr)[k]? = some f) :
    ∃ (a : Nat) (e : Event (CO ⊕ O) (CR ⊕ R)), tr[a]? = some e ∧ inner? e = some f ∧ (inner (tr.take a)).length = k := by
  induction tr generalizing k with
  | nil => simp [inner] at h
  | cons x tr ih =>
    simp only [inner, List.filterMap_cons] at h
    cases hx : inner? x with
    | none =>
      rw [hx] at h
      obtain ⟨a, e, h1, h2, h3⟩ := ih h
      exact ⟨a + 1, e, by simpa using h1, h2, by simpa [inner, hx] using h3⟩
    | some y =>
      rw [hx] at h
      cases k with
      | zero => simp at h; subst h; exact ⟨0, x, rfl, hx, rfl⟩
      | succ k =>
        obtain ⟨a, e, h1, h2, h3⟩ := ih (k := k) (by simpa [inner] using h)
        exact ⟨a + 1, e, by simpa using h1, h2, by simpa [inner, hx] using h3⟩

theorem InnerCall.returned {t a b : Nat} {o : O} {r : R} (hc : InnerCall tr t a b o r) :
    Returned (inner tr) (inner (tr.take a)).length (inner (tr.take b)).length r ∧
      (inner tr)[(inner (tr.take a)).length]? = some (.inv t o) := by
  obtain ⟨hab, ha, hb, hno⟩ := hc
  obtain ⟨h1, h2⟩ := inner_at ha rfl
  obtain ⟨h3, h4⟩ := inner_at hb rfl
  refine ⟨⟨t, o, h1, ?_, h3, ?_⟩, h1⟩
  · have := inner_take_le (tr := tr) (a := a + 1) (b := b) hab
    omega
  · intro k f hk1 hk2 hk ht
    obtain ⟨c, e, h5, h6, rfl⟩ := inner_from hk
    have h7 : a < c := by
      rcases Nat.lt_or_ge a c with h | h
      · exact h
      · have := inner_take_le (tr := tr) h; omega
    have h8 : c < b := by
      rcases Nat.lt_or_ge c b with h | h
      · exact h
      · have := inner_take_le (tr := tr) h; omega
    have := hno c e h7 h8 h5 (by rw [← tid_inner? h6]; exact ht)
    rw [this] at h6; cases h6

/-- **Every call of the container made by a routine takes effect at an instant between its invocation and its return.** -/
theorem MSteps.inner_instant (hm : m.Callable call) {rel : MConf S P → CState Sp → Prop} (hsim : m.SimBy ok Sp rel)
    (h0 : rel (m.base C₀) (CState.initial Sp)) (hx : MSteps (m.client rt call) (clientOk m rt call ok) C₀ tr C)
    {t a b : Nat} {o : O} {r : R} (hc : InnerCall tr t a b o r) :
    ∃ k C₁ c₁ σ, a < k ∧ k ≤ b ∧ MSteps (m.client rt call) (clientOk m rt call ok) C₀ (tr.take k) C₁ ∧
      MSteps (m.client rt call) (clientOk m rt call ok) C₁ (tr.drop k) C ∧ rel (m.base C₁) c₁ ∧ Sp.step c₁.st o r σ := by
  obtain ⟨hr, hinv⟩ := hc.returned
  obtain ⟨t', o', k', h1, h2, h3, X₁, c₁, X₂, c₂, h4, h5, h6, h7, h8, h9⟩ := MSteps.instant
    (C₀ := ⟨(C₀.s, []), C₀.pc⟩) (view_sim hm hsim) (by exact h0) hx.view hr
  rw [hinv] at h1
  cases h1
  have h10 : MSteps (m.view rt call) (viewOk m rt call ok) X₁ ((Verif.inner tr).drop k') ⟨(C.s, tr), C.pc⟩ := by
    rcases h6 with rfl | ⟨u, ch, s', p', hs, hok, rfl⟩
    · exact h8
    · simpa using ((MSteps.refl (m := m.view rt call) (ok := viewOk m rt call ok) X₁).step hs hok).trans h8
  obtain ⟨tr₁, g1, g2, g3⟩ := h4.unview
  obtain ⟨tr₂, g4, g5, g6⟩ := h10.unview
  simp only [List.nil_append] at g1
  simp only [g1] at g4
  subst g4
  have hlen : (Verif.inner tr₁).length = k' := by
    rw [g2, List.length_take]
    have := hr.lt.2
    omega
  refine ⟨tr₁.length, Verif.unview X₁, c₁, c₂.st, ?_, ?_, by rw [List.take_left' rfl]; exact g3,
    by rw [List.drop_left' rfl]; exact g6, h5, h9⟩
  · rcases Nat.lt_or_ge a tr₁.length with h | h
    · exact h
    · have := inner_take_le (tr := tr₁ ++ tr₂) h
      rw [List.take_left' rfl] at this; omega
  · rcases Nat.lt_or_ge b tr₁.length with h | h
    · have h11 := inner_take_le (tr := tr₁ ++ tr₂) (a := b + 1) h
      have h12 := (inner_at hc.2.2.1 rfl).2
      rw [List.take_left' rfl] at h11; omega
    · exact h

/-! ### Sequential use -/

/-- Calls made one after the other by one thread, nobody else doing anything, run the sequential specification. -/
theorem MSteps.solo_calls {S P Ch O R : Type} {m : Mach S P Ch O R} {ok : S → P → Ch → Prop} {C C₁ : MConf S P} {Sp : Spec O R}
    {rel : MConf S P → CState Sp → Prop} (hsim : m.SimBy ok Sp rel) {c : CState Sp} (hrel : rel C c)
    (hidle : ∀ t, c.status t = .idle) {t : Nat} {cs : List (O × R)} (hx : MSteps m ok C (callEvents t cs) C₁) :
    ∃ c', rel C₁ c' ∧ (∀ t, c'.status t = .idle) ∧ Run Sp c.st (cs.map fun x => (0, x)) c'.st := by
  induction cs generalizing C c with
  | nil =>
    simp only [callEvents] at hx
    generalize hh : ([] : History O R) = h at hx
    induction hx with
    | refl => exact ⟨c, hrel, hidle, .nil _⟩
    | @step h C' u ch s' p' e hx hs hok ih =>
      obtain ⟨rfl, he⟩ := List.append_eq_nil_iff.1 hh.symm
      have he : e = none := by cases e with
        | none => rfl
        | some e => cases he
      subst he
      obtain ⟨c₁, h1, h2, h3⟩ := ih rfl
      obtain ⟨c₂, h4, h5⟩ := hsim _ _ _ _ _ _ _ h1 hs hok
      generalize hE : (none : Option (Event O R)) = E at h5
      cases h5 with
      | stay => exact ⟨_, h4, h2, h3⟩
      | inv | res | resObs => cases hE
      | lin h6 => rw [h2] at h6; cases h6
      | obs h6 => rw [h2] at h6; cases h6
  | cons x cs ih =>
    obtain ⟨o, r⟩ := x
    obtain ⟨C', h1, h2⟩ := hx.split (h₁ := [.inv t o, .res t r]) (h₂ := callEvents t cs) rfl
    obtain ⟨c', h3, h4, h5⟩ := h1.solo hsim hrel hidle (List.prefix_refl _)
    rcases h5 with ⟨h5, _⟩ | ⟨h5, _⟩ | ⟨r', h5, h6, h7⟩
    · cases h5
    · cases h5
    · cases h5
      obtain ⟨c₂, h8, h9, h10⟩ := ih h3 (fun u => if hu : u = t then hu ▸ h6 else h4 u hu) h2
      exact ⟨c₂, h8, h9, .cons h7 h10⟩

/-- While all other threads are outside and make no call, all events are those of `t`. -/
theorem MSteps.only (hm : m.Callable call) {t : Nat} (hx : MSteps (m.client rt call) (clientOk m rt call ok) C tr C₁)
    (hq : ∀ u, u ≠ t → C.pc u = .out) (ho : ∀ e ∈ Verif.outer tr, e.tid = t) :
    (∀ u, u ≠ t → C₁.pc u = .out) ∧ ∀ e ∈ tr, e.tid = t := by
  induction hx with
  | refl => exact ⟨hq, by simp⟩
  | @step tr C' u ch s' p' e hx hs hok ih =>
    obtain ⟨h1, h2⟩ := ih fun e he => ho e (by rw [outer_append]; exact List.mem_append_left _ he)
    have hs' := ctrans_of_step hs
    by_cases hu : u = t
    · subst hu
      refine ⟨fun v hv => by simpa only [upd_ne _ _ _ hv] using h1 v hv, ?_⟩
      intro e' he'
      rcases List.mem_append.1 he' with he' | he'
      · exact h2 e' he'
      · cases e with
        | none => simp at he'
        | some e => simp at he'; subst he'; exact hs'.tid hm
    · exfalso
      rw [h1 u hu] at hs'
      cases hs' with
      | inv o => exact hu (ho (.inv u o) (by rw [outer_append]; simp [Verif.outer, outer?]))

theorem ofThread_all {t : Nat} {h : History O R} (hh : ∀ e ∈ h, e.tid = t) : ofThread t h = h :=
  List.filter_eq_self.2 fun e he => by simp [hh e he]

/-- **A call of a routine that runs alone: it runs one of its bodies on the sequential specification.** -/
theorem MSteps.solo_routine (hm : m.Callable call) {rel : MConf S P → CState Sp → Prop} (hsim : m.SimBy ok Sp rel)
    {c : CState Sp} (hrel : rel (m.base C) c) (hidle : ∀ t, c.status t = .idle) (hq : ∀ t, C.pc t = .out) {t : Nat} {o : CO} {r : CR}
    (hx : MSteps (m.client rt call) (clientOk m rt call ok) C tr C₁) (ho : Verif.outer tr = [.inv t o, .res t r]) :
    (∀ u, C₁.pc u = .out) ∧ ∃ cs c', rt.Body o cs r ∧ rel (m.base C₁) c' ∧ (∀ t, c'.status t = .idle) ∧
      Run Sp c.st (cs.map fun x => (0, x)) c'.st := by
  obtain ⟨h1, h2⟩ := hx.only hm (fun u _ => hq u) (by rw [ho]; intro e he; simp at he; rcases he with rfl | rfl <;> rfl)
  have h0 : C = outside C.s := by
    have : C.pc = fun _ => .out := funext hq
    simp only [outside, ← this]
  have h3 : CGood m rt t tr (C₁.pc t) := by rw [h0] at hx; exact hx.cgood hm t
  have h4 : ofThread t (Verif.outer tr) = [.inv t o, .res t r] := by rw [ho]; simp [ofThread, Event.tid]
  have h5 : ∀ e ∈ Verif.inner tr, e.tid = t := by
    intro e he
    obtain ⟨x, hx, hxe⟩ := List.mem_filterMap.1 he
    rw [tid_inner? hxe]; exact h2 x hx
  rcases h3 with ⟨h6, Cs, cs, h7, h8, h9⟩ | ⟨Cs, cs, o', ds, x, h7, _⟩
  · have h10 : Cs = [(o, r)] := by rw [← h7.callsOf, callsOf, h4]; rfl
    subst h10
    have h11 : rt.Body o cs r := by
      generalize hl : [(o, r)] = l at h9
      cases h9 with
      | nil => cases hl
      | @snoc Cs cs o' r' ds h12 h13 =>
        cases Cs with
        | nil =>
          cases hl
          generalize hl : ([] : List (CO × CR)) = l at h12
          cases h12 with
          | nil => exact h13
          | snoc => simp at hl
        | cons x Cs => simp at hl
    have h12 : Verif.inner tr = callEvents t cs := by rw [← ofThread_all h5]; exact h8
    have h13 := hx.inner hm
    rw [h12] at h13
    obtain ⟨c', h14, h15, h16⟩ := h13.solo_calls hsim hrel hidle
    exact ⟨fun u => if hu : u = t then hu ▸ h6 else h1 u hu, cs, c', h11, h14, h15, h16⟩
  · exfalso
    simp only [Did, h4] at h7
    have := congrArg List.getLast? h7
    simp at this

end Verif
