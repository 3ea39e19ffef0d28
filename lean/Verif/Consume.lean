import Verif.ClientCount

/-!
# `consume_one` and `consume_all` as routines (stack.hpp:580-598, queue.hpp:522-572)

`consume_one` of the queue pops an element and applies the functor to a local copy; `consume_all` of stack and queue calls
`consume_one` until it returns false. The functor is user code: it is only known to have been applied to an element, and whether
it threw an exception. It is assumed not to use the container itself.
-/

namespace Verif
open Lin

variable {O R α : Type}

/-- Calls: a call of the container itself; `consume_one` with a functor that throws (`thr`) or not; `consume_all` with a functor
that throws in its call number `thr`, if any. -/
inductive COp (O : Type) where
  | prim (o : O)
  | one (thr : Bool)
  | all (thr : Option Nat)

/-- Results: that of a call of the container; `consumed vs n`: the functor was applied to `vs`, in this order, and the call
returned `n` (`consume_one`: 1 stands for true, 0 for false); `raised vs`: the functor was applied to `vs` and an exception left the
call. -/
inductive CRet (R α : Type) where
  | prim (r : R)
  | consumed (vs : List α) (n : Nat)
  | raised (vs : List α)

/-- Local states: `loop once thr vs n`: the functor was applied to `vs`, the variable `element_count` is `n`. -/
inductive CLocal (O R α : Type) where
  | prim (o : O)
  | loop (once : Bool) (thr : Option Nat) (vs : List α) (n : Nat)
  | fin (r : CRet R α)

/-- `consume_one` (queue.hpp:522-531, 534-543) and `consume_all` (queue.hpp:553-561, 564-572; stack.hpp:580-587, 591-598).
`pop thr` is the call that pops an element (for the stack: `consume_one` with a functor that throws or not, stack.hpp:531-548, 552-569);
`val` is its result: an exception (`none`), false (`some none`) or an element. -/
def consumeRoutine (pop : Bool → O) (val : R → Option (Option α)) : Routine O R (COp O) (CRet R α) (CLocal O R α) where
  start
    | .prim o => .prim o
    | .one thr => .loop true (if thr then some 0 else none) [] 0
    | .all thr => .loop false thr [] 0
  next
    | .prim o => .inl o
    | .loop _ thr vs _ => .inl (pop (thr = some vs.length))
    | .fin r => .inr r
  got
    | .prim _, r => .fin (.prim r)
    | .loop once thr vs n, r =>
      match val r with
      | none => .fin (.raised vs)
      | some none => .fin (.consumed vs n)
      | some (some v) =>
        if thr = some vs.length then .fin (.raised (vs ++ [v]))
        else if once then .fin (.consumed (vs ++ [v]) (n + 1))
        else .loop once thr (vs ++ [v]) (n + 1)
    | .fin r, _ => .fin r

/-- The elements to which a call applied its functor. -/
def applied : CRet R α → List α
  | .consumed vs _ => vs
  | .raised vs => vs
  | .prim _ => []

/-- The calls a consumer makes to take the elements `vs`. -/
def takes (pop : Bool → O) (popped : Option α → R) (vs : List α) : List (O × R) := vs.map fun v => (pop false, popped (some v))

variable {pop : Bool → O} {val : R → Option (Option α)} {popped : Option α → R}

/-- The calls made in a local state reached from the beginning of `consume_one` (`once`) or `consume_all`. -/
def Consumed (pop : Bool → O) (val : R → Option (Option α)) (popped : Option α → R) (once : Bool) (thr : Option Nat)
    (cs : List (O × R)) : CLocal O R α → Prop
  | .prim _ => False
  | .loop once' thr' vs n => once' = once ∧ thr' = thr ∧ n = vs.length ∧ cs = takes pop popped vs ∧
      (∀ k < vs.length, thr ≠ some k) ∧ (once = true → vs = [])
  | .fin (.prim _) => False
  | .fin (.consumed vs n) => n = vs.length ∧ (∀ k < vs.length, thr ≠ some k) ∧
      ((once = true ∧ vs.length = 1 ∧ cs = takes pop popped vs) ∨
        (cs = takes pop popped vs ++ [(pop (thr = some vs.length), popped none)] ∧ (once = true → vs = [])))
  | .fin (.raised vs) => (once = true → vs.length ≤ 1) ∧
      ((∃ us v, vs = us ++ [v] ∧ thr = some us.length ∧ cs = takes pop popped us ++ [(pop true, popped (some v))]) ∨
        ∃ r, val r = none ∧ (once = true → vs = []) ∧ (∀ k < vs.length, thr ≠ some k) ∧
          cs = takes pop popped vs ++ [(pop (thr = some vs.length), r)])

theorem Routine.Part.consumed (hval : ∀ r x, val r = some x → r = popped x) {once thr l cs}
    (hp : (consumeRoutine pop val).Part (.loop once thr [] 0) cs l) : Consumed pop val popped once thr cs l := by
  induction hp with
  | nil => exact ⟨rfl, rfl, rfl, rfl, by simp, fun _ => rfl⟩
  | @snoc cs l' o r hp hn ih =>
    cases l' with
    | prim o => exact ih.elim
    | fin r => simp [consumeRoutine] at hn
    | loop once' thr' vs n =>
      obtain ⟨rfl, rfl, rfl, rfl, h5, h6⟩ := ih
      simp only [consumeRoutine, Sum.inl.injEq] at hn
      subst hn
      simp only [consumeRoutine]
      split
      · rename_i hv
        exact ⟨fun h => by rw [h6 h]; simp, .inr ⟨r, hv, h6, h5, rfl⟩⟩
      · rename_i hv
        have := hval _ _ hv; subst this
        exact ⟨rfl, h5, .inr ⟨rfl, h6⟩⟩
      · rename_i v hv
        have := hval _ _ hv; subst this
        split
        · rename_i ht
          refine ⟨fun h => by rw [h6 h]; simp, .inl ⟨vs, v, rfl, ht, by simp [ht]⟩⟩
        · rename_i ht
          have h7 : ∀ k < (vs ++ [v]).length, thr' ≠ some k := by
            intro k hk
            simp at hk
            by_cases h : k = vs.length
            · subst h; exact ht
            · exact h5 k (by omega)
          have h8 : takes pop popped vs ++ [(pop (decide (thr' = some vs.length)), popped (some v))] = takes pop popped (vs ++ [v]) := by
            simp [takes, ht]
          rw [h8]
          split
          · rename_i ho
            refine ⟨by simp, h7, .inl ⟨ho, by rw [h6 ho]; simp, rfl⟩⟩
          · rename_i ho
            exact ⟨rfl, rfl, by simp, rfl, h7, fun h => absurd h ho⟩

/-- The calls made by `consume_one`. -/
theorem Routine.Body.one (hval : ∀ r x, val r = some x → r = popped x) {thr cs} {r : CRet R α}
    (hb : (consumeRoutine pop val).Body (.one thr) cs r) :
    (cs = [(pop thr, popped none)] ∧ r = .consumed [] 0) ∨
    (∃ v, cs = [(pop thr, popped (some v))] ∧ r = if thr then .raised [v] else .consumed [v] 1) ∨
    ∃ x, val x = none ∧ cs = [(pop thr, x)] ∧ r = .raised [] := by
  obtain ⟨l, h1, h2⟩ := hb
  have h3 := Routine.Part.consumed hval h1
  cases l with
  | prim | loop => simp [consumeRoutine] at h2
  | fin r' =>
    simp only [consumeRoutine, Sum.inr.injEq] at h2
    subst h2
    cases r' with
    | prim => exact h3.elim
    | consumed vs n =>
      obtain ⟨rfl, h4, ⟨_, h5, rfl⟩ | ⟨rfl, h5⟩⟩ := h3
      · obtain ⟨v, rfl⟩ := List.length_eq_one_iff.1 h5
        have h6 := h4 0 (by simp)
        cases thr
        · exact .inr (.inl ⟨v, rfl, rfl⟩)
        · simp at h6
      · rw [h5 rfl]
        refine .inl ⟨?_, rfl⟩
        cases thr <;> simp [takes]
    | raised vs =>
      obtain ⟨h4, ⟨us, v, rfl, h5, rfl⟩ | ⟨x, h5, h6, h7, rfl⟩⟩ := h3
      · have h6 := h4 rfl
        have h7 : us = [] := by simpa using h6
        subst h7
        cases thr
        · simp at h5
        · exact .inr (.inl ⟨v, rfl, rfl⟩)
      · rw [h6 rfl]
        refine .inr (.inr ⟨x, h5, ?_, rfl⟩)
        cases thr <;> simp [takes]

/-- The calls made by `consume_all`. -/
theorem Routine.Body.all (hval : ∀ r x, val r = some x → r = popped x) {thr cs} {r : CRet R α}
    (hb : (consumeRoutine pop val).Body (.all thr) cs r) :
    (∃ vs, r = .consumed vs vs.length ∧ (∀ k < vs.length, thr ≠ some k) ∧
      cs = takes pop popped vs ++ [(pop (thr = some vs.length), popped none)]) ∨
    (∃ vs v, r = .raised (vs ++ [v]) ∧ thr = some vs.length ∧ cs = takes pop popped vs ++ [(pop true, popped (some v))]) ∨
    ∃ vs x, val x = none ∧ r = .raised vs ∧ (∀ k < vs.length, thr ≠ some k) ∧
      cs = takes pop popped vs ++ [(pop (thr = some vs.length), x)] := by
  obtain ⟨l, h1, h2⟩ := hb
  have h3 := Routine.Part.consumed hval h1
  cases l with
  | prim | loop => simp [consumeRoutine] at h2
  | fin r' =>
    simp only [consumeRoutine, Sum.inr.injEq] at h2
    subst h2
    cases r' with
    | prim => exact h3.elim
    | consumed vs n =>
      obtain ⟨rfl, h4, ⟨h, _⟩ | ⟨rfl, h5⟩⟩ := h3
      · simp at h
      · exact .inl ⟨vs, rfl, h4, rfl⟩
    | raised vs =>
      obtain ⟨h4, ⟨us, v, rfl, h5, rfl⟩ | ⟨x, h5, h6, h7, rfl⟩⟩ := h3
      · exact .inr (.inl ⟨us, v, rfl, h5, rfl⟩)
      · exact .inr (.inr ⟨vs, x, h5, rfl, h7, rfl⟩)

theorem Routine.Body.prim {o : O} {cs} {r : CRet R α} (hb : (consumeRoutine pop val).Body (.prim o) cs r) :
    ∃ x, cs = [(o, x)] ∧ r = .prim x := by
  obtain ⟨l, h1, h2⟩ := hb
  have key : ∀ cs l, (consumeRoutine pop val).Part (.prim o) cs l →
      (cs = [] ∧ l = .prim o) ∨ ∃ x, cs = [(o, x)] ∧ l = .fin (.prim x) := by
    intro cs l hp
    induction hp with
    | nil => exact .inl ⟨rfl, rfl⟩
    | @snoc cs l' o' r hp hn ih =>
      rcases ih with ⟨rfl, rfl⟩ | ⟨x, rfl, rfl⟩
      · simp only [consumeRoutine, Sum.inl.injEq] at hn
        subst hn
        exact .inr ⟨r, rfl, rfl⟩
      · simp [consumeRoutine] at hn
  rcases key cs l h1 with ⟨rfl, rfl⟩ | ⟨x, rfl, rfl⟩
  · simp [consumeRoutine] at h2
  · simp only [consumeRoutine, Sum.inr.injEq] at h2
    exact ⟨x, rfl, h2.symm⟩

/-! ### Positions of the calls -/

variable {CO CR : Type} {tr : Trace O R CO CR}

theorem ofThread_inner (t : Nat) (tr : Trace O R CO CR) :
    ofThread t (inner tr) = tr.filterMap fun e => (inner? e).filter fun f => f.tid == t := by
  simp only [ofThread, inner, List.filter_filterMap]

/-- Two consecutive events of `t` in a piece of a trace. -/
theorem piece_call {t : Nat} {W : Trace O R CO CR} {A B : History O R} {o : O} {r : R}
    (hw : ofThread t (inner W) = A ++ .inv t o :: .res t r :: B) :
    ∃ W₁ W₂ W₃, W = W₁ ++ .inv t (.inr o) :: (W₂ ++ .res t (.inr r) :: W₃) ∧ ofThread t (inner W₁) = A ∧
      ofThread t (inner W₂) = [] ∧ ofThread t (inner W₃) = B := by
  simp only [ofThread_inner] at hw ⊢
  obtain ⟨W₁, W', rfl, h1, h2⟩ := List.filterMap_eq_append_iff.1 hw
  obtain ⟨U, e, W'', rfl, h3, h4, h5⟩ := List.filterMap_eq_cons_iff.1 h2
  obtain ⟨W₂, e', W₃, rfl, h6, h7, h8⟩ := List.filterMap_eq_cons_iff.1 h5
  have key : ∀ {e : Event (CO ⊕ O) (CR ⊕ R)} {f : Event O R}, ((inner? e).filter fun f => f.tid == t) = some f → e = mkInner f := by
    intro e f h
    obtain ⟨h, _⟩ := Option.filter_eq_some_iff.1 h
    unfold inner? at h
    split at h <;> simp at h <;> subst h <;> rfl
  have he := key h4
  have he' := key h7
  subst he he'
  refine ⟨W₁ ++ U, W₂, W₃, by simp [mkInner], ?_, ?_, h8⟩
  · rw [List.filterMap_append, h1, List.filterMap_eq_nil_iff.2 h3, List.append_nil]
  · exact List.filterMap_eq_nil_iff.2 h6

/-- A call made by a routine, located in the trace. -/
theorem innerCall_of_piece {t : Nat} {X W Y : Trace O R CO CR} {A B : List (O × R)} {o : O} {r : R}
    (hw : ofThread t (inner W) = callEvents t (A ++ (o, r) :: B)) :
    ∃ W₁ W₂ W₃, W = W₁ ++ .inv t (.inr o) :: (W₂ ++ .res t (.inr r) :: W₃) ∧ ofThread t (inner W₁) = callEvents t A ∧
      ofThread t (inner W₃) = callEvents t B ∧
      InnerCall (X ++ W ++ Y) t (X.length + W₁.length) (X.length + W₁.length + 1 + W₂.length) o r := by
  rw [callEvents_append] at hw
  obtain ⟨W₁, W₂, W₃, rfl, h1, h2, h3⟩ := piece_call hw
  refine ⟨W₁, W₂, W₃, rfl, h1, h3, by omega, ?_, ?_, ?_⟩
  · simp
  · have : X ++ (W₁ ++ Event.inv t (Sum.inr o) :: (W₂ ++ Event.res t (Sum.inr r) :: W₃)) ++ Y =
        (X ++ W₁ ++ [Event.inv t (Sum.inr o)] ++ W₂) ++ (Event.res t (Sum.inr r) :: (W₃ ++ Y)) := by simp
    rw [this, List.getElem?_append_right (by simp; omega)]
    simp
    have : X.length + W₁.length + 1 + W₂.length - (X.length + (W₁.length + (W₂.length + 1))) = 0 := by omega
    rw [this]; rfl
  · intro k e hk1 hk2 hk ht
    have : X ++ (W₁ ++ Event.inv t (Sum.inr o) :: (W₂ ++ Event.res t (Sum.inr r) :: W₃)) ++ Y =
        (X ++ W₁ ++ [Event.inv t (Sum.inr o)]) ++ (W₂ ++ (Event.res t (Sum.inr r) :: (W₃ ++ Y))) := by simp
    rw [this, List.getElem?_append_right (by simp; omega), List.getElem?_append_left (by simp; omega)] at hk
    rw [ofThread_inner, List.filterMap_eq_nil_iff] at h2
    have h4 := h2 e (List.mem_of_getElem? hk)
    cases hf : inner? e with
    | none => rfl
    | some f =>
      rw [hf] at h4
      have := tid_inner? hf
      simp [this, ht] at h4

/-- A call within a window. -/
theorem window_call {t i j : Nat} {A B : List (O × R)} {o : O} {r : R} (hij : i < j) (hj : j < tr.length)
    (hw : ofThread t (inner (strictly tr i j)) = callEvents t (A ++ (o, r) :: B)) :
    ∃ a b, i < a ∧ b < j ∧ InnerCall tr t a b o r := by
  obtain ⟨W₁, W₂, W₃, h1, _, _, h4⟩ := innerCall_of_piece (X := tr.take (i + 1)) (Y := tr.drop j) hw
  have htr : tr.take (i + 1) ++ strictly tr i j ++ tr.drop j = tr := by
    have : tr.take (i + 1) ++ strictly tr i j = tr.take j := by
      have := List.take_append_drop (i + 1) (tr.take j)
      rw [List.take_take, Nat.min_eq_left hij] at this
      exact this
    rw [this, List.take_append_drop]
  rw [htr] at h4
  have hl : (strictly tr i j).length = j - (i + 1) := by simp [strictly]; omega
  rw [h1] at hl
  simp at hl
  simp only [List.length_take, Nat.min_eq_left (show i + 1 ≤ tr.length by omega)] at h4
  exact ⟨_, _, by omega, by omega, h4⟩

/-- Two calls within a window. -/
theorem window_calls {t i j : Nat} {A B D : List (O × R)} {o o' : O} {r r' : R} (hij : i < j) (hj : j < tr.length)
    (hw : ofThread t (inner (strictly tr i j)) = callEvents t (A ++ (o, r) :: (B ++ (o', r') :: D))) :
    ∃ a b a' b', i < a ∧ b < a' ∧ b' < j ∧ InnerCall tr t a b o r ∧ InnerCall tr t a' b' o' r' := by
  have htr : tr.take (i + 1) ++ strictly tr i j ++ tr.drop j = tr := by
    have : tr.take (i + 1) ++ strictly tr i j = tr.take j := by
      have := List.take_append_drop (i + 1) (tr.take j)
      rw [List.take_take, Nat.min_eq_left hij] at this
      exact this
    rw [this, List.take_append_drop]
  obtain ⟨W₁, W₂, W₃, h1, _, h3, h4⟩ := innerCall_of_piece (X := tr.take (i + 1)) (Y := tr.drop j) hw
  obtain ⟨V₁, V₂, V₃, g1, _, _, g4⟩ := innerCall_of_piece
    (X := tr.take (i + 1) ++ (W₁ ++ .inv t (.inr o) :: (W₂ ++ [.res t (.inr r)]))) (Y := tr.drop j) h3
  have h5 : tr.take (i + 1) ++ (W₁ ++ .inv t (.inr o) :: (W₂ ++ [.res t (.inr r)])) ++ W₃ ++ tr.drop j = tr := by
    rw [h1] at htr
    simpa using htr
  rw [htr] at h4
  rw [h5] at g4
  have hl : (strictly tr i j).length = j - (i + 1) := by simp [strictly]; omega
  rw [h1, g1] at hl
  simp at hl
  have hi1 : (tr.take (i + 1)).length = i + 1 := by simp; omega
  simp only [List.length_append, List.length_cons, List.length_nil, hi1] at h4 g4
  exact ⟨_, _, _, _, by omega, by omega, by omega, h4, g4⟩

theorem RoutineCall.lt {O R CO CR : Type} {tr : Trace O R CO CR} {t i j : Nat} {o : CO} {r : CR} (hc : RoutineCall tr t i j o r) :
    i < j ∧ j < tr.length := ⟨hc.1, lt_of_getElem? hc.2.2.1⟩

/-! ### Calls that are not made by `consume_one` and `consume_all` -/

section prim
variable {S P Ch : Type} {m : Mach S P Ch O R} {ok : S → P → Ch → Prop} {call : O → Ch} {tr : Trace O R (COp O) (CRet R α)}
  {C : MConf S (CPC P (CRet R α) (CLocal O R α))}

/-- The local state of a thread in a routine. -/
def CPC.local? {P CR L : Type} : CPC P CR L → Option L
  | .between l | .within l _ => some l
  | _ => none

/-- Every call of the container is a `pop`, or was asked for by the client. -/
theorem MSteps.prims (hm : m.Callable call) {s₀ : S}
    (hx : MSteps (m.client (consumeRoutine pop val) call) (clientOk m (consumeRoutine pop val) call ok) (outside s₀) tr C) :
    (∀ t o, (C.pc t).local? = some (.prim o) → Event.inv t (.inl (.prim o)) ∈ tr) ∧
    ∀ t o, Event.inv t (.inr o) ∈ tr → (∃ thr, o = pop thr) ∨ Event.inv t (.inl (.prim o)) ∈ tr := by
  induction hx with
  | refl => exact ⟨fun t o h => by simp [outside, CPC.local?] at h, fun t o h => by simp at h⟩
  | @step tr C u ch s' p' e hx hs _ ih =>
    obtain ⟨ih1, ih2⟩ := ih
    have hs' := ctrans_of_step hs
    have key : (∀ o, p'.local? = some (.prim o) → Event.inv u (.inl (.prim o)) ∈ tr ++ e.toList) ∧
        ∀ t o, Event.inv t (.inr o) ∈ e.toList → (∃ thr, o = pop thr) ∨ Event.inv t (.inl (.prim o)) ∈ tr := by
      have ih1u := ih1 u
      generalize hp : C.pc u = p at hs' ih1u
      cases hs' with
      | inv o =>
        refine ⟨fun o' h => ?_, fun t o' h => by simp at h⟩
        cases o <;> simp [CPC.local?, consumeRoutine] at h
        subst h; simp
      | leave => exact ⟨fun o h => by simp [CPC.local?] at h, fun t o h => by simp at h⟩
      | @enter l o s' p' e h1 h2 =>
        obtain ⟨rfl, _⟩ := hm.call _ _ _ _ _ _ h2
        refine ⟨fun o' h => List.mem_append_left _ (ih1u o' h), fun t o' h => ?_⟩
        simp [mkInner] at h
        obtain ⟨rfl, rfl⟩ := h
        cases l with
        | prim o'' => simp only [consumeRoutine, Sum.inl.injEq] at h1; subst h1; exact .inr (ih1u _ rfl)
        | loop once thr vs n => simp only [consumeRoutine, Sum.inl.injEq] at h1; exact .inl ⟨_, h1.symm⟩
        | fin => simp [consumeRoutine] at h1
      | @finish l p ch s' p' v r h1 =>
        refine ⟨fun o' h => ?_, fun t o' h => by simp at h⟩
        exfalso
        simp only [CPC.local?, Option.some.injEq] at h
        cases l with
        | loop once thr vs n =>
          simp only [consumeRoutine] at h
          split at h
          · cases h
          · cases h
          · split at h
            · cases h
            · split at h <;> cases h
        | _ => cases h
      | @inside l p ch s' p' e h1 h2 =>
        refine ⟨fun o' h => List.mem_append_left _ (ih1u o' h), fun t o' h => ?_⟩
        exfalso
        have hne : p ≠ m.idle := by
          rcases hx.cgood hm u with ⟨h3, _⟩ | ⟨Cs, cs, o, ds, x, _, _, _, h3⟩
          · rw [hp] at h3; cases h3
          · rw [hp] at h3; exact h3.1
        cases e with
        | none => simp at h
        | some f =>
          rcases hm.lawful _ _ _ _ _ _ _ h1 with ⟨h3, _⟩ | ⟨r, _, _, rfl⟩
          · exact hne h3
          · exact h2 _ _ rfl
      | res r => exact ⟨fun o h => by simp [CPC.local?] at h, fun t o h => by simp at h⟩
    refine ⟨fun t o h => ?_, fun t o h => ?_⟩
    · by_cases ht : t = u
      · subst ht; simp only [upd_self] at h; exact key.1 o h
      · simp only [upd_ne _ _ _ ht] at h; exact List.mem_append_left _ (ih1 t o h)
    · rcases List.mem_append.1 h with h | h
      · exact (ih2 t o h).imp_right (List.mem_append_left _)
      · exact (key.2 t o h).imp_right (List.mem_append_left _)

end prim

end Verif
