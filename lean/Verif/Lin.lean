/-!
# Linearizability (specification) and a proof rule for it

No code of /repo is modelled here. The first part is the textbook (Herlihy–Wing) definition of
linearizability of a history of invocation and response events with respect to a sequential
specification. The second part is the *canonical atomic object*, and the theorem that every history it
produces is linearizable. The stack, queue and spsc_queue models are related to the canonical atomic
object by simulation.
-/

namespace Verif.Lin

/-! ## Specification -/

/-- An event of a concurrent history: thread `t` calls an operation, or its pending call returns. -/
inductive Event (Op Ret : Type) where
  | inv (t : Nat) (o : Op)
  | res (t : Nat) (r : Ret)

/-- The thread an event belongs to. -/
def Event.tid {Op Ret : Type} : Event Op Ret → Nat
  | .inv t _ => t
  | .res t _ => t

/-- A history: the events of all threads, oldest first. -/
abbrev History (Op Ret : Type) := List (Event Op Ret)

/-- A sequential specification: an initial state and which (operation, result) pairs can take which
state to which state. -/
structure Spec (Op Ret : Type) where
  State : Type
  init : State
  step : State → Op → Ret → State → Prop

variable {Op Ret : Type}

/-- The call invoked at position `i` of `h` returned `r` at position `j`: the response at `j` is the
first event of the same thread after `i`. -/
def Returned (h : History Op Ret) (i j : Nat) (r : Ret) : Prop :=
  ∃ t o, h[i]? = some (.inv t o) ∧ i < j ∧ h[j]? = some (.res t r) ∧
    ∀ k e, i < k → k < j → h[k]? = some e → e.tid ≠ t

/-- `L` is a legal sequential run of the specification from `σ` to `σ'`. An entry `(i, o, r)` says that
the call invoked at position `i` of the history is operation `o` with result `r`. -/
inductive Run (S : Spec Op Ret) : S.State → List (Nat × Op × Ret) → S.State → Prop where
  | nil (σ) : Run S σ [] σ
  | cons {σ i o r σ' L σ''} : S.step σ o r σ' → Run S σ' L σ'' → Run S σ ((i, o, r) :: L) σ''

/-- `L` linearizes `h`. -/
structure Linearization (S : Spec Op Ret) (h : History Op Ret) (L : List (Nat × Op × Ret)) : Prop where
  /-- every call is placed at most once -/
  nodup : (L.map (·.1)).Nodup
  /-- only calls of the history are placed (pending ones may be, with any result) -/
  invoked : ∀ x ∈ L, ∃ t, h[x.1]? = some (.inv t x.2.1)
  /-- every completed call is placed, with the result it returned -/
  complete : ∀ i j r, Returned h i j r → ∃ o, (i, o, r) ∈ L
  /-- the order respects real time: if `b` returned before `a` was invoked, `a` is not before `b` -/
  realtime : L.Pairwise fun a b => ¬ ∃ j r, Returned h b.1 j r ∧ j < a.1
  /-- the order is a legal run of the sequential specification -/
  legal : ∃ σ, Run S S.init L σ

/-- Herlihy–Wing linearizability. -/
def Linearizable (S : Spec Op Ret) (h : History Op Ret) : Prop :=
  ∃ L, Linearization S h L

/-! ## The canonical atomic object -/

/-- What the canonical object knows about a thread: no call; a call that has not taken effect, with the
results it could have had by an effect-free linearization at some instant since it was invoked; or a
call that has taken effect. -/
inductive Status (Op Ret : Type) where
  | idle
  | pend (o : Op) (cands : Ret → Prop)
  | done (o : Op) (r : Ret)

structure CState (S : Spec Op Ret) where
  st : S.State
  status : Nat → Status Op Ret

/-- Pointwise update of a map. -/
def upd {A B : Type} [DecidableEq A] (f : A → B) (a : A) (b : B) : A → B :=
  fun x => if x = a then b else f x

@[simp, grind =] theorem upd_self {A B : Type} [DecidableEq A] (f : A → B) (a : A) (b : B) :
    upd f a b a = b := by simp [upd]

@[grind =] theorem upd_apply {A B : Type} [DecidableEq A] (f : A → B) (a : A) (b : B) (x : A) :
    upd f a b x = if x = a then b else f x := rfl

@[simp] theorem upd_ne {A B : Type} [DecidableEq A] (f : A → B) (a : A) (b : B) {x : A} (h : x ≠ a) :
    upd f a b x = f x := by simp [upd, h]

theorem upd_eq_self {A B : Type} [DecidableEq A] (f : A → B) (a : A) : upd f a (f a) = f := by
  funext x; simp only [upd]; split <;> simp_all

/-- Steps of the canonical object, with the visible event if any. -/
inductive CMove (S : Spec Op Ret) : CState S → Option (Event Op Ret) → CState S → Prop where
  | stay (c) : CMove S c none c
  | inv {c t o} : c.status t = .idle →
      CMove S c (some (.inv t o)) ⟨c.st, upd c.status t (.pend o fun _ => False)⟩
  | lin {c t o P r σ'} : c.status t = .pend o P → S.step c.st o r σ' →
      CMove S c none ⟨σ', upd c.status t (.done o r)⟩
  | obs {c t o P r} : c.status t = .pend o P → S.step c.st o r c.st →
      CMove S c none ⟨c.st, upd c.status t (.pend o fun r' => P r' ∨ r' = r)⟩
  | res {c t o r} : c.status t = .done o r →
      CMove S c (some (.res t r)) ⟨c.st, upd c.status t .idle⟩
  | resObs {c t o P r} : c.status t = .pend o P → P r →
      CMove S c (some (.res t r)) ⟨c.st, upd c.status t .idle⟩

def CState.initial (S : Spec Op Ret) : CState S := ⟨S.init, fun _ => .idle⟩

/-- `CReach S h c`: the canonical object can produce history `h` and then be in state `c`. -/
inductive CReach (S : Spec Op Ret) : History Op Ret → CState S → Prop where
  | init : CReach S [] (CState.initial S)
  | move {h c e c'} : CReach S h c → CMove S c e c' → CReach S (h ++ e.toList) c'

/-! ## Every history of the canonical object is linearizable -/

section proof
variable {S : Spec Op Ret}

/-- Entries annotated with the specification state after them. -/
abbrev AEntry (S : Spec Op Ret) := Nat × Op × Ret × S.State

def endSt (σ : S.State) : List (AEntry S) → S.State
  | [] => σ
  | x :: L => endSt x.2.2.2 L

def ARun (S : Spec Op Ret) : S.State → List (AEntry S) → Prop
  | _, [] => True
  | σ, x :: L => S.step σ x.2.1 x.2.2.1 x.2.2.2 ∧ ARun S x.2.2.2 L

theorem endSt_append (σ : S.State) (L1 L2 : List (AEntry S)) :
    endSt σ (L1 ++ L2) = endSt (endSt σ L1) L2 := by
  induction L1 generalizing σ with
  | nil => rfl
  | cons x L ih => simp [endSt, ih]

theorem ARun_append (σ : S.State) (L1 L2 : List (AEntry S)) :
    ARun S σ (L1 ++ L2) ↔ ARun S σ L1 ∧ ARun S (endSt σ L1) L2 := by
  induction L1 generalizing σ with
  | nil => simp [ARun, endSt]
  | cons x L ih => simp [ARun, endSt, ih, and_assoc]

def strip (x : AEntry S) : Nat × Op × Ret := (x.1, x.2.1, x.2.2.1)

theorem ARun.run {σ : S.State} {L : List (AEntry S)} (h : ARun S σ L) :
    Run S σ (L.map strip) (endSt σ L) := by
  induction L generalizing σ with
  | nil => exact .nil _
  | cons x L ih => exact .cons h.1 (ih h.2)

/-- The call at position `i` by `t` has not returned. -/
def Pending (h : History Op Ret) (t i : Nat) (o : Op) : Prop :=
  h[i]? = some (.inv t o) ∧ ∀ k e, i < k → h[k]? = some e → e.tid ≠ t

theorem getElem?_snoc (h : History Op Ret) (e : Event Op Ret) (i : Nat) :
    (h ++ [e])[i]? = if i < h.length then h[i]? else if i = h.length then some e else none := by
  by_cases h1 : i < h.length
  · simp [h1, List.getElem?_append_left]
  · by_cases h2 : i = h.length
    · subst h2; simp
    · simp [h1, h2]; omega

theorem lt_of_getElem? {h : History Op Ret} {i : Nat} {e} (he : h[i]? = some e) : i < h.length := by
  grind

theorem Returned.snoc_inv {h : History Op Ret} {t o} {i j r} :
    Returned (h ++ [.inv t o]) i j r ↔ Returned h i j r := by
  simp only [Returned, getElem?_snoc]
  constructor
  · rintro ⟨t', o', h1, h2, h3, h4⟩
    refine ⟨t', o', ?_, h2, ?_, ?_⟩ <;> grind
  · rintro ⟨t', o', h1, h2, h3, h4⟩
    have := lt_of_getElem? h3
    refine ⟨t', o', ?_, h2, ?_, ?_⟩ <;> grind

theorem Returned.snoc_old {h : History Op Ret} {e} {i j r} (hj : j < h.length) :
    Returned (h ++ [e]) i j r ↔ Returned h i j r := by
  simp only [Returned, getElem?_snoc]
  constructor
  · rintro ⟨t', o', h1, h2, h3, h4⟩
    refine ⟨t', o', ?_, h2, ?_, ?_⟩ <;> grind
  · rintro ⟨t', o', h1, h2, h3, h4⟩
    refine ⟨t', o', ?_, h2, ?_, ?_⟩ <;> grind

theorem Returned.lt {h : History Op Ret} {i j r} (hr : Returned h i j r) : i < j ∧ j < h.length := by
  obtain ⟨t, o, h1, h2, h3, _⟩ := hr
  exact ⟨h2, lt_of_getElem? h3⟩

theorem Returned.snoc_new {h : History Op Ret} {t r} {i j r'}
    (hr : Returned (h ++ [.res t r]) i j r') (hj : ¬ j < h.length) :
    j = h.length ∧ r' = r ∧ ∃ o, Pending h t i o := by
  have hl := hr.lt
  obtain ⟨t', o', h1, h2, h3, h4⟩ := hr
  have : j = h.length := by simp at hl; omega
  subst this
  simp only [getElem?_snoc] at h1 h3 h4
  simp at h3
  obtain ⟨rfl, rfl⟩ := h3
  refine ⟨rfl, rfl, o', ?_, ?_⟩
  · simpa [h2] using h1
  · intro k e hk he
    have hlt := lt_of_getElem? he
    exact h4 k e hk hlt (by simpa [hlt] using he)

theorem Pending.snoc_ne {h : History Op Ret} {t i o e} (hp : Pending h t i o) (hne : e.tid ≠ t) :
    Pending (h ++ [e]) t i o := by
  have := lt_of_getElem? hp.1
  refine ⟨by simpa [getElem?_snoc, this] using hp.1, fun k e' hk he' => ?_⟩
  simp only [getElem?_snoc] at he'
  split at he'
  · exact hp.2 k e' hk he'
  · split at he'
    · simp at he'; subst he'; exact hne
    · simp at he'

theorem Pending.unsnoc {h : History Op Ret} {t i o e} (hp : Pending (h ++ [e]) t i o)
    (hi : i < h.length) : Pending h t i o ∧ e.tid ≠ t := by
  refine ⟨⟨by simpa [getElem?_snoc, hi] using hp.1, fun k e' hk he' => ?_⟩, ?_⟩
  · have := lt_of_getElem? he'
    exact hp.2 k e' hk (by simpa [getElem?_snoc, this] using he')
  · exact hp.2 h.length e hi (by simp)

theorem Pending.unique {h : History Op Ret} {t i o i' o'} (hp : Pending h t i o)
    (hp' : Pending h t i' o') : i = i' ∧ o = o' := by
  have a := hp.2 i'
  have b := hp'.2 i
  have := hp.1; have := hp'.1
  have : i = i' := by
    rcases Nat.lt_trichotomy i i' with h1 | h1 | h1
    · exact absurd rfl (a _ h1 hp'.1)
    · exact h1
    · exact absurd rfl (b _ h1 hp.1)
  subst this
  grind

/-- Ids returned before position `i` do not occur in `L`. -/
def NotBefore (h : History Op Ret) (i : Nat) (L : List (AEntry S)) : Prop :=
  ∀ b ∈ L, ¬ ∃ j r, Returned h b.1 j r ∧ j < i

/-- Per-thread part of the invariant. -/
def TGood (h : History Op Ret) (L : List (AEntry S)) (t : Nat) : Status Op Ret → Prop
  | .idle => ∀ i o, ¬ Pending h t i o
  | .pend o P => ∃ i, Pending h t i o ∧ (∀ x ∈ L, x.1 ≠ i) ∧
      ∀ r, P r → ∃ L1 L2, L = L1 ++ L2 ∧
        S.step (endSt S.init L1) o r (endSt S.init L1) ∧ NotBefore h i L2
  | .done o r => ∃ i σ, Pending h t i o ∧ (i, o, r, σ) ∈ L

structure Good (h : History Op Ret) (c : CState S) (L : List (AEntry S)) : Prop where
  run : ARun S S.init L
  fin : endSt S.init L = c.st
  nodup : (L.map (·.1)).Nodup
  invoked : ∀ x ∈ L, ∃ t, h[x.1]? = some (.inv t x.2.1)
  complete : ∀ i j r, Returned h i j r → ∃ o σ, (i, o, r, σ) ∈ L
  realtime : L.Pairwise fun a b => ¬ ∃ j r, Returned h b.1 j r ∧ j < a.1
  thr : ∀ t, TGood h L t (c.status t)
  ret : ∀ x ∈ L, (∃ j, Returned h x.1 j x.2.2.1) ∨
    ∃ t, Pending h t x.1 x.2.1 ∧ c.status t = .done x.2.1 x.2.2.1

theorem Returned.snoc {h : History Op Ret} {i j r e} (hr : Returned h i j r) :
    Returned (h ++ [e]) i j r := (Returned.snoc_old hr.lt.2).2 hr

theorem Pending.returned {h : History Op Ret} {t i o} (hp : Pending h t i o) (r : Ret) :
    Returned (h ++ [.res t r]) i h.length r := by
  have hl := lt_of_getElem? hp.1
  refine ⟨t, o, by simpa [getElem?_snoc, hl] using hp.1, hl, by simp, fun k e hk hk' he => ?_⟩
  exact hp.2 k e hk (by simpa [getElem?_snoc, hk'] using he)

theorem Good.id_lt {h : History Op Ret} {c : CState S} {L} (g : Good h c L) {x} (hx : x ∈ L) :
    x.1 < h.length := by
  obtain ⟨t, ht⟩ := g.invoked x hx
  exact lt_of_getElem? ht

theorem Good.linearization {h : History Op Ret} {c : CState S} {L} (g : Good h c L) :
    Linearization S h (L.map strip) := by
  refine ⟨?_, ?_, ?_, ?_, ?_⟩
  · have : (L.map strip).map (·.1) = L.map (·.1) := by simp [strip, Function.comp_def]
    rw [this]; exact g.nodup
  · intro x hx
    obtain ⟨y, hy, rfl⟩ := List.mem_map.1 hx
    exact g.invoked y hy
  · intro i j r hr
    obtain ⟨o, σ, hm⟩ := g.complete i j r hr
    exact ⟨o, List.mem_map.2 ⟨_, hm, rfl⟩⟩
  · rw [List.pairwise_map]; exact g.realtime
  · exact ⟨_, g.run.run⟩

theorem NotBefore.snoc {h : History Op Ret} {i : Nat} {L : List (AEntry S)} {e}
    (hb : NotBefore h i L) (hi : i ≤ h.length) : NotBefore (h ++ [e]) i L := by
  rintro b hbL ⟨j, r, hr, hj⟩
  exact hb b hbL ⟨j, r, (Returned.snoc_old (by omega)).1 hr, hj⟩

/-- An event of another thread keeps the per-thread invariant. -/
theorem TGood.snoc_ne {h : History Op Ret} {L : List (AEntry S)} {t st e}
    (hne : e.tid ≠ t) (g : TGood h L t st) : TGood (h ++ [e]) L t st := by
  cases st with
  | idle =>
    intro i o hp
    have hl : i < h.length := by
      have h1 := hp.1
      simp only [getElem?_snoc] at h1
      split at h1
      · assumption
      · split at h1
        · simp at h1; subst h1; exact absurd rfl hne
        · simp at h1
    exact g i o (hp.unsnoc hl).1
  | pend o P =>
    obtain ⟨i, hp, hn, hc⟩ := g
    refine ⟨i, hp.snoc_ne hne, hn, fun r hr => ?_⟩
    obtain ⟨L1, L2, h1, h2, h3⟩ := hc r hr
    exact ⟨L1, L2, h1, h2, h3.snoc (Nat.le_of_lt (lt_of_getElem? hp.1))⟩
  | done o r =>
    obtain ⟨i, σ, hp, hm⟩ := g
    exact ⟨i, σ, hp.snoc_ne hne, hm⟩

/-- Appending an entry at the end keeps the invariant of threads that are not its owner. -/
theorem TGood.append {h : History Op Ret} {L : List (AEntry S)} {t st x}
    (hx : ∀ o, ¬ Pending h t x.1 o) (hnb : ∀ j r, ¬ Returned h x.1 j r)
    (g : TGood h L t st) : TGood h (L ++ [x]) t st := by
  cases st with
  | idle => exact g
  | pend o P =>
    obtain ⟨i, hp, hn, hc⟩ := g
    refine ⟨i, hp, ?_, fun r hr => ?_⟩
    · intro y hy
      rcases List.mem_append.1 hy with hy | hy
      · exact hn y hy
      · simp at hy; subst hy; intro he; subst he; exact hx _ hp
    · obtain ⟨L1, L2, h1, h2, h3⟩ := hc r hr
      refine ⟨L1, L2 ++ [x], by simp [h1], h2, ?_⟩
      intro b hb
      rcases List.mem_append.1 hb with hb | hb
      · exact h3 b hb
      · simp at hb; subst hb; rintro ⟨j, r, hr, _⟩; exact hnb _ _ hr
  | done o r =>
    obtain ⟨i, σ, hp, hm⟩ := g
    exact ⟨i, σ, hp, by simp [hm]⟩

/-- Inserting an effect-free entry in the middle keeps the invariant of other threads. -/
theorem TGood.insert {h : History Op Ret} {A B : List (AEntry S)} {t st i o r}
    (hx : ∀ o, ¬ Pending h t i o) (hnb : ∀ j r, ¬ Returned h i j r)
    (g : TGood h (A ++ B) t st) :
    TGood h (A ++ (i, o, r, endSt S.init A) :: B) t st := by
  cases st with
  | idle => exact g
  | pend o' P =>
    obtain ⟨i', hp, hn, hc⟩ := g
    refine ⟨i', hp, ?_, fun r' hr => ?_⟩
    · intro y hy
      simp only [List.mem_append, List.mem_cons] at hy
      rcases hy with hy | hy | hy
      · exact hn y (by simp [hy])
      · subst hy; intro he; simp only at he; subst he; exact hx _ hp
      · exact hn y (by simp [hy])
    · obtain ⟨L1, L2, h1, h2, h3⟩ := hc r' hr
      rcases List.append_eq_append_iff.1 h1 with ⟨X, hX1, hX2⟩ | ⟨X, hX1, hX2⟩
      · -- L1 = A ++ X, B = X ++ L2
        refine ⟨A ++ (i, o, r, endSt S.init A) :: X, L2, by simp [hX2], ?_, h3⟩
        have : endSt S.init (A ++ (i, o, r, endSt S.init A) :: X) = endSt S.init L1 := by
          rw [hX1, endSt_append, endSt_append]; simp [endSt]
        rw [this]; exact h2
      · -- A = L1 ++ X, L2 = X ++ B
        refine ⟨L1, X ++ (i, o, r, endSt S.init A) :: B, by simp [hX1], h2, ?_⟩
        intro b hb
        simp only [List.mem_append, List.mem_cons] at hb
        rcases hb with hb | hb | hb
        · exact h3 b (by simp [hX2, hb])
        · subst hb; rintro ⟨j, r, hr, _⟩; exact hnb _ _ hr
        · exact h3 b (by simp [hX2, hb])
  | done o' r' =>
    obtain ⟨i', σ, hp, hm⟩ := g
    refine ⟨i', σ, hp, ?_⟩
    simp only [List.mem_append, List.mem_cons] at hm ⊢
    rcases hm with hm | hm
    · exact .inl hm
    · exact .inr (.inr hm)

theorem Pending.not_returned {h : History Op Ret} {t i o} (hp : Pending h t i o) :
    ∀ j r, ¬ Returned h i j r := by
  rintro j r ⟨t', o', h1, h2, h3, _⟩
  have := hp.1
  rw [h1] at this
  simp at this
  obtain ⟨rfl, rfl⟩ := this
  exact hp.2 j _ h2 h3 rfl

theorem Pending.other {h : History Op Ret} {t t' i o} (hp : Pending h t i o) (hne : t' ≠ t) :
    ∀ o', ¬ Pending h t' i o' := by
  intro o' hp'
  have := hp.1
  rw [hp'.1] at this
  simp at this
  exact hne this.1

/-- A `res` event keeps the list part of the invariant. -/
theorem realtime_snoc_res {h : History Op Ret} {L : List (AEntry S)} {e}
    (hl : ∀ x ∈ L, x.1 < h.length)
    (rt : L.Pairwise fun a b => ¬ ∃ j r, Returned h b.1 j r ∧ j < a.1) :
    L.Pairwise fun a b => ¬ ∃ j r, Returned (h ++ [e]) b.1 j r ∧ j < a.1 := by
  refine List.Pairwise.imp_of_mem ?_ rt
  rintro a b ha _ hab ⟨j, r, hr, hj⟩
  exact hab ⟨j, r, (Returned.snoc_old (by have := hl a ha; omega)).1 hr, hj⟩

theorem Good.move {h : History Op Ret} {c c' : CState S} {L e} (g : Good h c L)
    (m : CMove S c e c') : ∃ L', Good (h ++ e.toList) c' L' := by
  cases m with
  | stay => exact ⟨L, by simpa using g⟩
  | @inv t o hidle =>
    refine ⟨L, ?_⟩
    simp only [Option.toList]
    refine ⟨g.run, g.fin, g.nodup, ?_, ?_, ?_, ?_, ?_⟩
    · intro x hx
      obtain ⟨t', ht⟩ := g.invoked x hx
      exact ⟨t', by have := lt_of_getElem? ht; simpa [getElem?_snoc, this] using ht⟩
    · intro i j r hr
      exact g.complete i j r (Returned.snoc_inv.1 hr)
    · exact realtime_snoc_res (fun x hx => g.id_lt hx) g.realtime
    · intro t'
      by_cases ht : t' = t
      · subst ht
        simp only [upd_self]
        refine ⟨h.length, ⟨by simp, ?_⟩, ?_, ?_⟩
        · intro k e hk he
          have := lt_of_getElem? he
          simp at this; omega
        · intro x hx; have := g.id_lt hx; omega
        · intro r hr; exact hr.elim
      · simp only [upd_ne _ _ _ ht]
        exact (g.thr t').snoc_ne (by simp [Event.tid]; exact fun h => ht h.symm)
    · intro x hx
      rcases g.ret x hx with ⟨j, hj⟩ | ⟨t', hp, hd⟩
      · exact .inl ⟨j, hj.snoc⟩
      · have hne : t' ≠ t := by rintro rfl; simp [hidle] at hd
        exact .inr ⟨t', hp.snoc_ne (by simp [Event.tid]; exact fun h => hne h.symm),
          by simp [upd_ne _ _ _ hne, hd]⟩
  | @lin t o P r σ' hst hstep =>
    have hg := g.thr t
    rw [hst] at hg
    obtain ⟨i, hp, hn, hc⟩ := hg
    refine ⟨L ++ [(i, o, r, σ')], ?_⟩
    simp only [Option.toList, List.append_nil]
    refine ⟨?_, ?_, ?_, ?_, ?_, ?_, ?_, ?_⟩
    · rw [ARun_append]; refine ⟨g.run, ?_⟩; rw [g.fin]; exact ⟨hstep, trivial⟩
    · rw [endSt_append]; rfl
    · rw [List.map_append, List.nodup_append]
      refine ⟨g.nodup, by simp, ?_⟩
      intro a ha b hb hab
      simp at hb
      obtain ⟨x, hx, rfl⟩ := List.mem_map.1 ha
      exact hn x hx (hab.trans hb)
    · intro x hx
      rcases List.mem_append.1 hx with hx | hx
      · exact g.invoked x hx
      · simp at hx; subst hx; exact ⟨t, hp.1⟩
    · intro i' j r' hr
      obtain ⟨o', σ, hm⟩ := g.complete i' j r' hr
      exact ⟨o', σ, by simp [hm]⟩
    · rw [List.pairwise_append]
      refine ⟨g.realtime, by simp, ?_⟩
      intro a _ b hb
      simp at hb; subst hb
      rintro ⟨j, r', hr, _⟩
      exact hp.not_returned _ _ hr
    · intro t'
      by_cases ht : t' = t
      · subst ht
        simp only [upd_self]
        exact ⟨i, σ', hp, by simp⟩
      · simp only [upd_ne _ _ _ ht]
        exact (g.thr t').append (hp.other ht) hp.not_returned
    · intro x hx
      rcases List.mem_append.1 hx with hx | hx
      · rcases g.ret x hx with hj | ⟨t', hp', hd⟩
        · exact .inl hj
        · have hne : t' ≠ t := by rintro rfl; simp [hst] at hd
          exact .inr ⟨t', hp', by simp [upd_ne _ _ _ hne, hd]⟩
      · simp at hx; subst hx
        exact .inr ⟨t, hp, by simp⟩
  | @obs t o P r hst hstep =>
    refine ⟨L, ?_⟩
    simp only [Option.toList, List.append_nil]
    refine ⟨g.run, g.fin, g.nodup, g.invoked, g.complete, g.realtime, ?_, fun x hx => ?_⟩
    rotate_left
    · rcases g.ret x hx with hj | ⟨t', hp', hd⟩
      · exact .inl hj
      · have hne : t' ≠ t := by rintro rfl; simp [hst] at hd
        exact .inr ⟨t', hp', by simp [upd_ne _ _ _ hne, hd]⟩
    intro t'
    by_cases ht : t' = t
    · subst ht
      have hg := g.thr t'
      rw [hst] at hg
      obtain ⟨i, hp, hn, hc⟩ := hg
      simp only [upd_self]
      refine ⟨i, hp, hn, ?_⟩
      rintro r' (hr' | rfl)
      · exact hc r' hr'
      · refine ⟨L, [], by simp, by rw [g.fin]; exact hstep, ?_⟩
        intro b hb; simp at hb
    · simp only [upd_ne _ _ _ ht]; exact g.thr t'
  | @res t o r hst =>
    have hg := g.thr t
    rw [hst] at hg
    obtain ⟨i, σ, hp, hm⟩ := hg
    refine ⟨L, ?_⟩
    simp only [Option.toList]
    refine ⟨g.run, g.fin, g.nodup, ?_, ?_, ?_, ?_, ?_⟩
    · intro x hx
      obtain ⟨t', ht⟩ := g.invoked x hx
      exact ⟨t', by have := lt_of_getElem? ht; simpa [getElem?_snoc, this] using ht⟩
    · intro i' j r' hr
      by_cases hj : j < h.length
      · exact g.complete i' j r' ((Returned.snoc_old hj).1 hr)
      · obtain ⟨_, rfl, o', hp'⟩ := hr.snoc_new hj
        obtain ⟨rfl, rfl⟩ := hp.unique hp'
        exact ⟨_, _, hm⟩
    · exact realtime_snoc_res (fun x hx => g.id_lt hx) g.realtime
    · intro t'
      by_cases ht : t' = t
      · subst ht
        simp only [upd_self]
        intro i' o' hp'
        have hl := lt_of_getElem? hp'.1
        simp at hl
        have : i' < h.length := by
          rcases Nat.lt_or_ge i' h.length with h1 | h1
          · exact h1
          · have : i' = h.length := by omega
            have h2 := hp'.1
            rw [getElem?_snoc] at h2
            simp [this] at h2
        exact absurd rfl (hp'.unsnoc this).2
      · simp only [upd_ne _ _ _ ht]
        exact (g.thr t').snoc_ne (by simp [Event.tid]; exact fun h => ht h.symm)
    · intro x hx
      rcases g.ret x hx with ⟨j, hj⟩ | ⟨t', hp', hd⟩
      · exact .inl ⟨j, hj.snoc⟩
      · by_cases hne : t' = t
        · subst hne
          rw [hst] at hd
          cases hd
          exact .inl ⟨_, hp'.returned _⟩
        · exact .inr ⟨t', hp'.snoc_ne (by simp [Event.tid]; exact fun h => hne h.symm),
            by simp [upd_ne _ _ _ hne, hd]⟩
  | @resObs t o P r hst hP =>
    have hg := g.thr t
    rw [hst] at hg
    obtain ⟨i, hp, hn, hc⟩ := hg
    obtain ⟨L1, L2, rfl, hstep, hnb⟩ := hc r hP
    have hil := lt_of_getElem? hp.1
    refine ⟨L1 ++ (i, o, r, endSt S.init L1) :: L2, ?_⟩
    simp only [Option.toList]
    have hids : ∀ x ∈ L1 ++ (i, o, r, endSt S.init L1) :: L2, x.1 < h.length := by
      intro x hx
      simp only [List.mem_append, List.mem_cons] at hx
      rcases hx with hx | hx | hx
      · exact g.id_lt (by simp [hx])
      · subst hx; exact hil
      · exact g.id_lt (by simp [hx])
    refine ⟨?_, ?_, ?_, ?_, ?_, ?_, ?_, ?_⟩
    · have h1 := g.run
      rw [ARun_append] at h1
      rw [ARun_append]
      exact ⟨h1.1, hstep, h1.2⟩
    · have := g.fin
      rw [endSt_append] at this
      rw [endSt_append]
      simpa [endSt] using this
    · have h1 := g.nodup
      simp only [List.map_append, List.map_cons] at h1 ⊢
      rw [List.nodup_append] at h1
      rw [List.nodup_append, List.nodup_cons]
      refine ⟨h1.1, ⟨?_, h1.2.1⟩, ?_⟩
      · intro hm
        obtain ⟨x, hx, he⟩ := List.mem_map.1 hm
        exact hn x (by simp [hx]) he
      · intro a ha b hb
        simp only [List.mem_cons] at hb
        rcases hb with rfl | hb
        · obtain ⟨x, hx, rfl⟩ := List.mem_map.1 ha
          exact hn x (by simp [hx])
        · exact h1.2.2 a ha b hb
    · intro x hx
      have hcase : ∃ t, h[x.1]? = some (.inv t x.2.1) := by
        simp only [List.mem_append, List.mem_cons] at hx
        rcases hx with hx | hx | hx
        · exact g.invoked x (by simp [hx])
        · subst hx; exact ⟨t, hp.1⟩
        · exact g.invoked x (by simp [hx])
      obtain ⟨t', ht⟩ := hcase
      exact ⟨t', by have := lt_of_getElem? ht; simpa [getElem?_snoc, this] using ht⟩
    · intro i' j r' hr
      by_cases hj : j < h.length
      · obtain ⟨o', σ, hm⟩ := g.complete i' j r' ((Returned.snoc_old hj).1 hr)
        refine ⟨o', σ, ?_⟩
        simp only [List.mem_append, List.mem_cons] at hm ⊢
        rcases hm with hm | hm
        · exact .inl hm
        · exact .inr (.inr hm)
      · obtain ⟨_, rfl, o', hp'⟩ := hr.snoc_new hj
        obtain ⟨rfl, rfl⟩ := hp.unique hp'
        exact ⟨o, endSt S.init L1, by simp⟩
    · refine realtime_snoc_res hids ?_
      have h1 := g.realtime
      rw [List.pairwise_append] at h1 ⊢
      refine ⟨h1.1, ?_, ?_⟩
      · rw [List.pairwise_cons]
        refine ⟨?_, h1.2.1⟩
        intro b hb; exact hnb b hb
      · intro a ha b hb
        simp only [List.mem_cons] at hb
        rcases hb with rfl | hb
        · rintro ⟨j, r', hr, _⟩; exact hp.not_returned _ _ hr
        · exact h1.2.2 a ha b hb
    · intro t'
      by_cases ht : t' = t
      · subst ht
        simp only [upd_self]
        intro i' o' hp'
        have hl := lt_of_getElem? hp'.1
        simp at hl
        have : i' < h.length := by
          rcases Nat.lt_or_ge i' h.length with h1 | h1
          · exact h1
          · have : i' = h.length := by omega
            have h2 := hp'.1
            rw [getElem?_snoc] at h2
            simp [this] at h2
        exact absurd rfl (hp'.unsnoc this).2
      · simp only [upd_ne _ _ _ ht]
        exact ((g.thr t').insert (hp.other ht) hp.not_returned).snoc_ne
          (by simp [Event.tid]; exact fun h => ht h.symm)
    · intro x hx
      have hold : x ∈ L1 ++ L2 → (∃ j, Returned (h ++ [.res t r]) x.1 j x.2.2.1) ∨
          ∃ t', Pending (h ++ [.res t r]) t' x.1 x.2.1 ∧ upd c.status t .idle t' = .done x.2.1 x.2.2.1 := by
        intro hx
        rcases g.ret x hx with ⟨j, hj⟩ | ⟨t', hp', hd⟩
        · exact .inl ⟨j, hj.snoc⟩
        · have hne : t' ≠ t := by rintro rfl; simp [hst] at hd
          exact .inr ⟨t', hp'.snoc_ne (by simp [Event.tid]; exact fun h => hne h.symm),
            by simp [upd_ne _ _ _ hne, hd]⟩
      simp only [List.mem_append, List.mem_cons] at hx
      rcases hx with hx | hx | hx
      · exact hold (by simp [hx])
      · subst hx; exact .inl ⟨_, hp.returned _⟩
      · exact hold (by simp [hx])

theorem CReach.good {h : History Op Ret} {c : CState S} (hr : CReach S h c) : ∃ L, Good h c L := by
  induction hr with
  | init =>
    refine ⟨[], trivial, rfl, by simp, by simp, ?_, by simp, ?_, by simp⟩
    · rintro i j r ⟨t, o, h1, _⟩; simp at h1
    · rintro t i o hp; have := hp.1; simp at this
  | move _ m ih =>
    obtain ⟨L, hg⟩ := ih
    exact hg.move m

/-- **Proof rule**: every history of the canonical atomic object is linearizable. -/
theorem CReach.linearizable {h : History Op Ret} {c : CState S} (hr : CReach S h c) :
    Linearizable S h := by
  obtain ⟨L, hg⟩ := hr.good
  exact ⟨_, hg.linearization⟩

/-- The same with the final state: the linearization leads to the state of the canonical object, and
contains no call that neither returned nor has taken effect. -/
theorem CReach.linearization {h : History Op Ret} {c : CState S} (hr : CReach S h c) :
    ∃ L, Linearization S h L ∧ Run S S.init L c.st ∧
      ∀ x ∈ L, (∃ j, Returned h x.1 j x.2.2) ∨ ∃ t, c.status t = .done x.2.1 x.2.2 := by
  obtain ⟨L, hg⟩ := hr.good
  refine ⟨_, hg.linearization, ?_, ?_⟩
  · have := hg.run.run
    rw [hg.fin] at this
    exact this
  · intro x hx
    obtain ⟨y, hy, rfl⟩ := List.mem_map.1 hx
    rcases hg.ret y hy with h1 | ⟨t, _, h2⟩
    · exact .inl h1
    · exact .inr ⟨t, h2⟩

end proof

end Verif.Lin
