import Verif.WeakLin
import Verif.Queue.Spec

/-!
# The canonical weak queue and its linearizability with respect to happens-before (proof rule)

Under a weak memory model a thread that finds the queue empty may have looked at old values of `head_` and
`tail_`. The canonical weak queue keeps all elements ever pushed; events are stamped with the number of pops
and the number of pushes that the thread is known to have seen. A `pop` may answer "empty" for the past
moment after `k` pushes and `k` pops, provided that its caller had not seen more than `k` of either and
that no thread that performed one of the first `k` pops had been called with knowledge of more than `k` pushes.
No code of /repo is modelled here.
-/

namespace Verif.Queue
open Lin

variable {α : Type}

/-- Status of a thread: no call; a call that has not taken effect, stamped `b` at its invocation; or a call that
has taken effect and requires the stamp of its response to be at least `need`. -/
inductive QStatus (α : Type) where
  | idle
  | pend (o : Op α) (b : Nat × Nat)
  | done (o : Op α) (r : Ret α) (need : Nat × Nat)

structure QC (α : Type) where
  /-- all elements pushed so far -/
  vals : List α
  /-- number of elements popped -/
  nd : Nat
  /-- how many pushes are known to those who know `k` pops -/
  tau : Nat → Nat
  status : Nat → QStatus α

/-- Steps of the canonical weak queue. -/
inductive QMove (fixed : Bool) : QC α → Option (Event (Op α) (Ret α) × (Nat × Nat)) → QC α → Prop where
  | stay (c) : QMove fixed c none c
  | inv {c t o b} : c.status t = .idle → b.1 ≤ c.nd → b.2 ≤ c.vals.length →
      QMove fixed c (some (.inv t o, b)) { c with status := upd c.status t (.pend o b) }
  | push {c t bd v b} : c.status t = .pend (.push bd v) b →
      QMove fixed c none { c with vals := c.vals ++ [v],
                                  status := upd c.status t (.done (.push bd v) (.pushed true) (0, c.vals.length + 1)) }
  | pop {c t b v τ} : c.status t = .pend .pop b → c.vals[c.nd]? = some v → c.tau c.nd ≤ τ → b.2 ≤ τ →
      QMove fixed c none { c with nd := c.nd + 1, tau := upd c.tau (c.nd + 1) τ,
                                  status := upd c.status t (.done .pop (.popped (some v)) (c.nd + 1, 0)) }
  | emp {c t b k} : c.status t = .pend .pop b → b.1 ≤ k → b.2 ≤ k → k ≤ c.nd → c.tau k ≤ k →
      QMove fixed c none { c with status := upd c.status t (.done .pop (.popped none) (k, 0)) }
  | neu {c t o b r} : c.status t = .pend o b → (∀ σ, specStep fixed σ o r σ) →
      QMove fixed c none { c with status := upd c.status t (.done o r b) }
  | res {c t o r need s} : c.status t = .done o r need → need.1 ≤ s.1 → need.2 ≤ s.2 →
      QMove fixed c (some (.res t r, s)) { c with status := upd c.status t .idle }

def QC.initial (α : Type) : QC α := ⟨[], 0, fun _ => 0, fun _ => .idle⟩

inductive QReach (fixed : Bool) : List (Event (Op α) (Ret α) × (Nat × Nat)) → QC α → Prop where
  | init : QReach fixed [] (QC.initial α)
  | move {h c e c'} : QReach fixed h c → QMove fixed c e c' → QReach fixed (h ++ e.toList) c'

/-- The stamp at a position. -/
def qst (tr : List (Event (Op α) (Ret α) × (Nat × Nat))) (i : Nat) : Nat × Nat := (tr[i]?.map (·.2)).getD (0, 0)

/-! ## Proof -/

/-- How a call took effect: as the `m`-th push, as the `m`-th pop, as a pop that saw the queue empty after `k` pops,
or without looking at the queue. -/
inductive QKind where
  | push (m : Nat)
  | pop (m : Nat)
  | emp (k : Nat)
  | neu

def QKind.push? : QKind → Option Nat
  | .push m => some m
  | _ => none

def QKind.pop? : QKind → Option Nat
  | .pop m => some m
  | _ => none

def QKind.emp? : QKind → Option Nat
  | .emp m => some m
  | _ => none

/-- A call that has taken effect: position of the invocation, call, result, kind, stamp of the invocation. -/
structure QRec (α : Type) where
  id : Nat
  op : Op α
  ret : Ret α
  kind : QKind
  st : Nat × Nat

def QRec.need (x : QRec α) : Nat × Nat :=
  match x.kind with
  | .push m => (0, m)
  | .pop m => (m, 0)
  | .emp k => (k, 0)
  | .neu => x.st

/-- What a call means for the elements. -/
def QRec.Ok (fixed : Bool) (c : QC α) (x : QRec α) : Prop :=
  match x.kind with
  | .push m => (∃ b v, x.op = .push b v ∧ x.ret = .pushed true ∧ c.vals[m - 1]? = some v) ∧ 0 < m ∧
      x.st.1 < m ∧ x.st.2 < m
  | .pop m => (∃ v, x.op = .pop ∧ x.ret = .popped (some v) ∧ c.vals[m - 1]? = some v) ∧ 0 < m ∧ m ≤ c.nd ∧
      x.st.1 < m ∧ x.st.2 ≤ c.tau m
  | .emp k => x.op = .pop ∧ x.ret = .popped none ∧ k ≤ c.nd ∧ x.st.1 ≤ k ∧ x.st.2 ≤ k ∧ c.tau k ≤ k
  | .neu => ∀ σ, specStep fixed σ x.op x.ret σ

/-- The calls that have taken effect, in this order, explain the elements. -/
structure QShape (fixed : Bool) (c : QC α) (R : List (QRec α)) : Prop where
  pushes : R.filterMap (·.kind.push?) = List.range' 1 c.vals.length
  pops : R.filterMap (·.kind.pop?) = List.range' 1 c.nd
  nd : c.nd ≤ c.vals.length
  ok : ∀ x ∈ R, x.Ok fixed c
  mono : ∀ a b, a ≤ b → b ≤ c.nd → c.tau a ≤ c.tau b
  after : R.Pairwise fun a b => ∀ m m', a.kind = .pop m → b.kind = .push m' → m < m'

/-! ### Counting the moments at which the queue was seen empty -/

/-- The number of `k < m` with `E k`. -/
def phi (E : Nat → Bool) : Nat → Nat
  | 0 => 0
  | m + 1 => phi E m + (if E m then 1 else 0)

theorem phi_mono {E : Nat → Bool} {a b : Nat} (h : a ≤ b) : phi E a ≤ phi E b := by
  induction h with
  | refl => exact Nat.le_refl _
  | step _ ih => exact Nat.le_trans ih (by simp [phi])

theorem phi_lt {E : Nat → Bool} {k m : Nat} (hk : E k = true) (h : k < m) : phi E k < phi E m := by
  have h1 : phi E (k + 1) = phi E k + 1 := by simp [phi, hk]
  have := phi_mono (E := E) (show k + 1 ≤ m by omega)
  omega

theorem phi_eq {E : Nat → Bool} {a b : Nat} (h : a ≤ b) (hE : ∀ k, a ≤ k → k < b → E k = false) :
    phi E a = phi E b := by
  induction h with
  | refl => rfl
  | @step b hab ih =>
    rw [phi, hE b hab (by omega), ih fun k h1 h2 => hE k h1 (by omega)]
    simp

/-- Position of a call in the linear order. -/
def QRec.key (E : Nat → Bool) (x : QRec α) : Nat :=
  match x.kind with
  | .push m => 2 * phi E m
  | .pop m => 2 * phi E m
  | .emp k => 2 * phi E k + 1
  | .neu => if E x.st.1 = true ∧ x.st.2 ≤ x.st.1 then 2 * phi E x.st.1 + 1 else 2 * phi E (max x.st.1 x.st.2)

/-- Stable sorting. -/
theorem exists_sorted {β : Type} (key : β → Nat) (P : β → β → Prop) (R : List β) (hR : R.Pairwise P) :
    ∃ L : List β, L.Perm R ∧ L.Pairwise fun a b => key a < key b ∨ (key a = key b ∧ P a b) := by
  induction R with
  | nil => exact ⟨[], .refl _, .nil⟩
  | cons x R ih =>
    obtain ⟨hx, hR⟩ := List.pairwise_cons.1 hR
    obtain ⟨L, hp, hs⟩ := ih hR
    have hxL : ∀ y ∈ L, P x y := fun y hy => hx y (hp.mem_iff.1 hy)
    suffices h : ∀ L : List β, (∀ y ∈ L, P x y) →
        (L.Pairwise fun a b => key a < key b ∨ (key a = key b ∧ P a b)) →
        ∃ L' : List β, L'.Perm (x :: L) ∧ L'.Pairwise fun a b => key a < key b ∨ (key a = key b ∧ P a b) by
      obtain ⟨L', h1, h2⟩ := h L hxL hs
      exact ⟨L', h1.trans (hp.cons x), h2⟩
    intro L
    induction L with
    | nil => intro _ _; exact ⟨[x], .refl _, by simp⟩
    | cons y L ih =>
      intro h1 h2
      obtain ⟨hy, h2'⟩ := List.pairwise_cons.1 h2
      by_cases hk : key x ≤ key y
      · refine ⟨x :: y :: L, .refl _, List.pairwise_cons.2 ⟨fun z hz => ?_, h2⟩⟩
        have hz' : key y ≤ key z := by
          rcases List.mem_cons.1 hz with rfl | hz
          · exact Nat.le_refl _
          · rcases hy z hz with h | h <;> omega
        by_cases h : key x < key z
        · exact .inl h
        · exact .inr ⟨by omega, h1 z hz⟩
      · obtain ⟨L', h3, h4⟩ := ih (fun z hz => h1 z (List.mem_cons_of_mem _ hz)) h2'
        refine ⟨y :: L', ((h3.cons y).trans (.swap ..)), List.pairwise_cons.2 ⟨fun z hz => ?_, h4⟩⟩
        rcases List.mem_cons.1 (h3.mem_iff.1 hz) with rfl | hz
        · exact .inl (by omega)
        · exact hy z hz

/-- What a legal order of calls must satisfy. -/
structure QOrd (a b : QRec α) : Prop where
  pp : ∀ m m', a.kind = .push m → b.kind = .push m' → m < m'
  dd : ∀ m m', a.kind = .pop m → b.kind = .pop m' → m < m'
  dp : ∀ m m', a.kind = .pop m → b.kind = .push m' → m < m'
  ep : ∀ k m, a.kind = .emp k → b.kind = .push m → k < m
  ed : ∀ k m, a.kind = .emp k → b.kind = .pop m → k < m
  pe : ∀ m k, a.kind = .push m → b.kind = .emp k → m ≤ k
  de : ∀ m k, a.kind = .pop m → b.kind = .emp k → m ≤ k

theorem eq_range'_of_perm {l : List Nat} {s n : Nat} (hp : l.Perm (List.range' s n)) (hs : l.Pairwise (· < ·)) :
    l = List.range' s n := by
  refine List.Perm.eq_of_pairwise (le := (· < ·)) ?_ hs List.pairwise_lt_range' hp
  intro a b _ _ h1 h2; omega

theorem mem_range'_one {s n : Nat} (h : 0 < n) : s ∈ List.range' s n := by
  rw [List.mem_range'_1]; omega

/-- A legal order is a run of the sequential queue. -/
theorem run_of_ord {fixed : Bool} {c : QC α} {B : List (QRec α)} {p d : Nat}
    (hp : B.filterMap (·.kind.push?) = List.range' (p + 1) (c.vals.length - p))
    (hd : B.filterMap (·.kind.pop?) = List.range' (d + 1) (c.nd - d))
    (hdp : d ≤ p) (hpn : p ≤ c.vals.length) (hdn : d ≤ c.nd) (hnd : c.nd ≤ c.vals.length)
    (hord : B.Pairwise QOrd) (hok : ∀ x ∈ B, x.Ok fixed c)
    (hE : ∀ x ∈ B, ∀ k, x.kind = .emp k → p ≤ k ∧ d ≤ k) :
    Run (spec α fixed) ((c.vals.take p).drop d) (B.map fun x => (x.id, x.op, x.ret)) (c.vals.drop c.nd) := by
  induction B generalizing p d with
  | nil =>
    have h1 : c.vals.length - p = 0 := by
      rcases Nat.eq_zero_or_pos (c.vals.length - p) with h | h
      · exact h
      · have := mem_range'_one (s := p + 1) h; rw [← hp] at this; simp at this
    have h2 : c.nd - d = 0 := by
      rcases Nat.eq_zero_or_pos (c.nd - d) with h | h
      · exact h
      · have := mem_range'_one (s := d + 1) h; rw [← hd] at this; simp at this
    have h3 : c.vals.take p = c.vals := List.take_of_length_le (by omega)
    have h4 : d = c.nd := by omega
    rw [h3, h4]
    exact .nil _
  | cons x B ih =>
    obtain ⟨ho, hord⟩ := List.pairwise_cons.1 hord
    have hokx := hok x (by simp)
    have hokB : ∀ y ∈ B, y.Ok fixed c := fun y hy => hok y (by simp [hy])
    have hpm : ∀ m, p < m → m ≤ c.vals.length → (∃ y ∈ x :: B, y.kind = .push m) := by
      intro m h1 h2
      have : m ∈ (x :: B).filterMap (·.kind.push?) := by rw [hp, List.mem_range'_1]; omega
      obtain ⟨y, hy, h⟩ := List.mem_filterMap.1 this
      refine ⟨y, hy, ?_⟩
      cases hk : y.kind <;> simp [hk, QKind.push?] at h ⊢; exact h
    have hdm : ∀ m, d < m → m ≤ c.nd → (∃ y ∈ x :: B, y.kind = .pop m) := by
      intro m h1 h2
      have : m ∈ (x :: B).filterMap (·.kind.pop?) := by rw [hd, List.mem_range'_1]; omega
      obtain ⟨y, hy, h⟩ := List.mem_filterMap.1 this
      refine ⟨y, hy, ?_⟩
      cases hk : y.kind <;> simp [hk, QKind.pop?] at h ⊢; exact h
    simp only [List.map_cons]
    cases hk : x.kind with
    | push m =>
      simp only [QRec.Ok, hk] at hokx
      obtain ⟨⟨b, v, h1, h2, h3⟩, h4, _⟩ := hokx
      simp only [List.filterMap_cons, hk, QKind.push?, QKind.pop?] at hp hd
      have hlen : 0 < c.vals.length - p := by
        rcases Nat.eq_zero_or_pos (c.vals.length - p) with h | h
        · rw [h] at hp; simp at hp
        · exact h
      obtain ⟨q, hq⟩ : ∃ q, c.vals.length - p = q + 1 := ⟨c.vals.length - p - 1, by omega⟩
      rw [hq, List.range'_succ, List.cons.injEq] at hp
      obtain ⟨rfl, hp⟩ := hp
      have hst : (c.vals.take (p + 1)).drop d = (c.vals.take p).drop d ++ [v] := by
        rw [List.take_add_one, show c.vals[p]? = some v from h3]
        simp only [Option.toList_some]
        rw [List.drop_append_of_le_length (by simp; omega)]
      refine .cons (σ' := (c.vals.take (p + 1)).drop d) ?_ (ih (p := p + 1) (d := d) ?_ hd (by omega) (by omega) hdn hord hokB ?_)
      · rw [h1, h2, hst]; exact Or.inl ⟨rfl, rfl⟩
      · refine Eq.trans hp ?_; congr 1; omega
      · intro y hy k hyk
        exact ⟨(ho y hy).pe _ _ hk hyk, (hE y (by simp [hy]) k hyk).2⟩
    | pop m =>
      simp only [QRec.Ok, hk] at hokx
      obtain ⟨⟨v, h1, h2, h3⟩, h4, h5, _⟩ := hokx
      simp only [List.filterMap_cons, hk, QKind.push?, QKind.pop?] at hp hd
      have hlen : 0 < c.nd - d := by
        rcases Nat.eq_zero_or_pos (c.nd - d) with h | h
        · rw [h] at hd; simp at hd
        · exact h
      obtain ⟨q, hq⟩ : ∃ q, c.nd - d = q + 1 := ⟨c.nd - d - 1, by omega⟩
      rw [hq, List.range'_succ, List.cons.injEq] at hd
      obtain ⟨rfl, hd⟩ := hd
      have hlt : d < p := by
        refine Classical.byContradiction fun hge => ?_
        obtain ⟨y, hy, hyk⟩ := hpm (p + 1) (by omega) (by omega)
        rcases List.mem_cons.1 hy with rfl | hy
        · rw [hk] at hyk; cases hyk
        · have := (ho y hy).dp _ _ hk hyk; omega
      have hst : (c.vals.take p).drop d = v :: (c.vals.take p).drop (d + 1) := by
        have h6 : (c.vals.take p)[d]? = some v := by
          rw [List.getElem?_take_of_lt hlt]; exact h3
        obtain ⟨h7, h8⟩ := List.getElem?_eq_some_iff.1 h6
        rw [List.drop_eq_getElem_cons h7, h8]
      refine .cons (σ' := (c.vals.take p).drop (d + 1)) ?_ (ih (p := p) (d := d + 1) hp ?_ (by omega) hpn (by omega) hord hokB ?_)
      · rw [h1, h2]; exact hst
      · refine Eq.trans hd ?_; congr 1; omega
      · intro y hy k hyk
        exact ⟨(hE y (by simp [hy]) k hyk).1, (ho y hy).de _ _ hk hyk⟩
    | emp k =>
      simp only [QRec.Ok, hk] at hokx
      obtain ⟨h1, h2, h3, _⟩ := hokx
      have hk2 := hE x (by simp) k hk
      have hdk : d = k := by
        refine Classical.byContradiction fun hne => ?_
        obtain ⟨y, hy, hyk⟩ := hdm (d + 1) (by omega) (by omega)
        rcases List.mem_cons.1 hy with rfl | hy
        · rw [hk] at hyk; cases hyk
        · have := (ho y hy).ed _ _ hk hyk; omega
      have hpk : p = k := by omega
      have hst : (c.vals.take p).drop d = [] := by
        rw [List.drop_eq_nil_iff]; simp; omega
      simp only [List.filterMap_cons, hk, QKind.push?, QKind.pop?] at hp hd
      refine .cons (σ' := (c.vals.take p).drop d) ?_ (ih hp hd hdp hpn hdn hord hokB fun y hy => hE y (by simp [hy]))
      rw [h1, h2, hst]; exact ⟨rfl, rfl⟩
    | neu =>
      simp only [QRec.Ok, hk] at hokx
      simp only [List.filterMap_cons, hk, QKind.push?, QKind.pop?] at hp hd
      have h1 : (spec α fixed).step ((c.vals.take p).drop d) x.op x.ret ((c.vals.take p).drop d) := hokx _
      exact .cons h1 (ih hp hd hdp hpn hdn hord hokB fun y hy => hE y (by simp [hy]))

/-- The moments at which a call saw the queue empty. -/
def seenEmpty (R : List (QRec α)) (k : Nat) : Bool := R.any fun x => x.kind.emp? == some k

theorem seenEmpty_iff {R : List (QRec α)} {k : Nat} : seenEmpty R k = true ↔ ∃ x ∈ R, x.kind = .emp k := by
  simp only [seenEmpty, List.any_eq_true, beq_iff_eq]
  constructor
  · rintro ⟨x, hx, h⟩
    refine ⟨x, hx, ?_⟩
    cases hk : x.kind <;> simp [hk, QKind.emp?] at h ⊢; exact h
  · rintro ⟨x, hx, h⟩; exact ⟨x, hx, by simp [h, QKind.emp?]⟩

theorem Pairwise.and' {β : Type} {P Q : β → β → Prop} {l : List β} (h1 : l.Pairwise P) (h2 : l.Pairwise Q) :
    l.Pairwise fun a b => P a b ∧ Q a b := by
  induction l with
  | nil => exact .nil
  | cons x l ih =>
    obtain ⟨a, a'⟩ := List.pairwise_cons.1 h1
    obtain ⟨b, b'⟩ := List.pairwise_cons.1 h2
    exact List.pairwise_cons.2 ⟨fun y hy => ⟨a y hy, b y hy⟩, ih a' b'⟩

section
variable {fixed : Bool} {c : QC α} {R : List (QRec α)}

theorem QShape.emp_ok (hs : QShape fixed c R) {k} (hk : seenEmpty R k = true) : k ≤ c.nd ∧ c.tau k ≤ k := by
  obtain ⟨x, hx, h⟩ := seenEmpty_iff.1 hk
  have := hs.ok x hx
  simp only [QRec.Ok, h] at this
  exact ⟨this.2.2.1, this.2.2.2.2.2⟩

/-- Order of the calls by commit. -/
def QSeq (a b : QRec α) : Prop :=
  (∀ m m', a.kind = .push m → b.kind = .push m' → m < m') ∧
  (∀ m m', a.kind = .pop m → b.kind = .pop m' → m < m') ∧
  ∀ m m', a.kind = .pop m → b.kind = .push m' → m < m'

theorem pairwise_of_filterMap {f : QKind → Option Nat} {R : List (QRec α)} {s n : Nat}
    (h : R.filterMap (fun x => f x.kind) = List.range' s n) :
    R.Pairwise fun a b => ∀ m m', f a.kind = some m → f b.kind = some m' → m < m' := by
  have h1 : (R.filterMap (fun x => f x.kind)).Pairwise (· < ·) := by rw [h]; exact List.pairwise_lt_range'
  rw [List.pairwise_filterMap] at h1
  exact h1.imp fun h m m' h2 h3 => h m h2 m' h3

theorem QShape.seq (hs : QShape fixed c R) : R.Pairwise QSeq := by
  have h1 := pairwise_of_filterMap (f := QKind.push?) hs.pushes
  have h2 := pairwise_of_filterMap (f := QKind.pop?) hs.pops
  refine (Pairwise.and' h1 (Pairwise.and' h2 hs.after)).imp fun ⟨a, b, d⟩ => ⟨?_, ?_, d⟩
  · intro m m' h h'; exact a m m' (by simp [h, QKind.push?]) (by simp [h', QKind.push?])
  · intro m m' h h'; exact b m m' (by simp [h, QKind.pop?]) (by simp [h', QKind.pop?])

/-- Sorting by key gives a legal order. -/
theorem ord_of_key {a b : QRec α} (hb : b ∈ R)
    (h : a.key (seenEmpty R) < b.key (seenEmpty R) ∨ (a.key (seenEmpty R) = b.key (seenEmpty R) ∧ QSeq a b)) :
    QOrd a b := by
  have hmono : ∀ m m', phi (seenEmpty R) m < phi (seenEmpty R) m' → m < m' := by
    intro m m' h
    refine Classical.byContradiction fun hge => ?_
    have := phi_mono (E := seenEmpty R) (show m' ≤ m by omega); omega
  have he : ∀ x ∈ R, ∀ k, x.kind = .emp k → ∀ m, phi (seenEmpty R) m ≤ phi (seenEmpty R) k → m ≤ k := by
    intro x hx k hk m hm
    refine Classical.byContradiction fun hge => ?_
    have := phi_lt (E := seenEmpty R) (seenEmpty_iff.2 ⟨x, hx, hk⟩) (show k < m by omega); omega
  refine ⟨?_, ?_, ?_, ?_, ?_, ?_, ?_⟩
  · intro m m' h1 h2
    simp only [QRec.key, h1, h2] at h
    rcases h with h | h
    · exact hmono _ _ (by omega)
    · exact h.2.1 m m' h1 h2
  · intro m m' h1 h2
    simp only [QRec.key, h1, h2] at h
    rcases h with h | h
    · exact hmono _ _ (by omega)
    · exact h.2.2.1 m m' h1 h2
  · intro m m' h1 h2
    simp only [QRec.key, h1, h2] at h
    rcases h with h | h
    · exact hmono _ _ (by omega)
    · exact h.2.2.2 m m' h1 h2
  · intro k m h1 h2
    simp only [QRec.key, h1, h2] at h
    exact hmono _ _ (by omega)
  · intro k m h1 h2
    simp only [QRec.key, h1, h2] at h
    exact hmono _ _ (by omega)
  · intro m k h1 h2
    simp only [QRec.key, h1, h2] at h
    exact he b hb k h2 m (by omega)
  · intro m k h1 h2
    simp only [QRec.key, h1, h2] at h
    exact he b hb k h2 m (by omega)

/-- The keys respect the stamps. -/
theorem key_le (hs : QShape fixed c R) {a b : QRec α} (ha : a ∈ R) (hb : b ∈ R) (h1 : b.need.1 ≤ a.st.1)
    (h2 : b.need.2 ≤ a.st.2) : b.key (seenEmpty R) ≤ a.key (seenEmpty R) := by
  have hoa := hs.ok a ha
  have hob := hs.ok b hb
  have hmono : ∀ {m m'}, m ≤ m' → phi (seenEmpty R) m ≤ phi (seenEmpty R) m' := fun h => phi_mono h
  -- moments between the seen numbers of pops and pushes are not "empty" ones
  have hlt : ∀ {k m}, seenEmpty R k = true → k < m → phi (seenEmpty R) k < phi (seenEmpty R) m := fun h h' => phi_lt h h'
  generalize hE : seenEmpty R = E at *
  have hEok : ∀ {k}, E k = true → k ≤ c.nd ∧ c.tau k ≤ k := fun h => hs.emp_ok (by rw [hE]; exact h)
  have hEof : ∀ {x k}, x ∈ R → x.kind = .emp k → E k = true := fun hx hk => by
    rw [← hE]; exact seenEmpty_iff.2 ⟨_, hx, hk⟩
  cases hka : a.kind with
  | push m' =>
    simp only [QRec.Ok, hka] at hoa
    cases hkb : b.kind with
    | push m => simp only [QRec.need, hkb] at h1 h2; simp only [QRec.key, hka, hkb]; have := @hmono m m' (by omega); omega
    | pop m => simp only [QRec.need, hkb] at h1 h2; simp only [QRec.key, hka, hkb]; have := @hmono m m' (by omega); omega
    | emp k =>
      simp only [QRec.need, hkb] at h1 h2; simp only [QRec.key, hka, hkb]
      have := hlt (hEof hb hkb) (show k < m' by omega); omega
    | neu =>
      simp only [QRec.need, hkb] at h1 h2
      simp only [QRec.key, hka, hkb]
      split
      · rename_i h; have := hlt h.1 (show b.st.1 < m' by omega); omega
      · have := @hmono (max b.st.1 b.st.2) m' (by omega); omega
  | pop m' =>
    simp only [QRec.Ok, hka] at hoa
    obtain ⟨_, hm0, hmn, hs1, hs2⟩ := hoa
    -- everything below the number of pushes seen is in the same phase
    have hph : ∀ m, m ≤ c.tau m' → phi E m ≤ phi E m' := by
      intro m hm
      by_cases hle : m ≤ m'
      · exact hmono hle
      · refine Nat.le_of_eq (phi_eq (by omega) fun k hk1 hk2 => ?_).symm
        refine Bool.eq_false_iff.2 fun hk => ?_
        obtain ⟨h3, h4⟩ := hEok hk
        have := hs.mono m' k hk1 h3
        omega
    cases hkb : b.kind with
    | push m =>
      simp only [QRec.need, hkb] at h1 h2; simp only [QRec.key, hka, hkb]
      have := hph m (by omega); omega
    | pop m => simp only [QRec.need, hkb] at h1 h2; simp only [QRec.key, hka, hkb]; have := @hmono m m' (by omega); omega
    | emp k =>
      simp only [QRec.need, hkb] at h1 h2; simp only [QRec.key, hka, hkb]
      have := hlt (hEof hb hkb) (show k < m' by omega); omega
    | neu =>
      simp only [QRec.need, hkb] at h1 h2
      simp only [QRec.key, hka, hkb]
      split
      · rename_i h; have := hlt h.1 (show b.st.1 < m' by omega); omega
      · by_cases hle : b.st.2 ≤ b.st.1
        · have := @hmono (max b.st.1 b.st.2) m' (by omega); omega
        · have := hph (max b.st.1 b.st.2) (by omega); omega
  | emp k' =>
    simp only [QRec.Ok, hka] at hoa
    cases hkb : b.kind with
    | push m => simp only [QRec.need, hkb] at h1 h2; simp only [QRec.key, hka, hkb]; have := @hmono m k' (by omega); omega
    | pop m => simp only [QRec.need, hkb] at h1 h2; simp only [QRec.key, hka, hkb]; have := @hmono m k' (by omega); omega
    | emp k => simp only [QRec.need, hkb] at h1 h2; simp only [QRec.key, hka, hkb]; have := @hmono k k' (by omega); omega
    | neu =>
      simp only [QRec.need, hkb] at h1 h2
      simp only [QRec.key, hka, hkb]
      split
      · have := @hmono b.st.1 k' (by omega); omega
      · have := @hmono (max b.st.1 b.st.2) k' (by omega); omega
  | neu =>
    cases hkb : b.kind with
    | push m =>
      simp only [QRec.need, hkb] at h1 h2; simp only [QRec.key, hka, hkb]
      split
      · have := @hmono m a.st.1 (by omega); omega
      · have := @hmono m (max a.st.1 a.st.2) (by omega); omega
    | pop m =>
      simp only [QRec.need, hkb] at h1 h2; simp only [QRec.key, hka, hkb]
      split
      · have := @hmono m a.st.1 (by omega); omega
      · have := @hmono m (max a.st.1 a.st.2) (by omega); omega
    | emp k =>
      simp only [QRec.need, hkb] at h1 h2; simp only [QRec.key, hka, hkb]
      have hk := hEof hb hkb
      split
      · have := @hmono k a.st.1 (by omega); omega
      · rename_i h
        have : k < max a.st.1 a.st.2 := by
          by_cases h3 : k = a.st.1
          · subst h3
            have : ¬ a.st.2 ≤ a.st.1 := fun h4 => h ⟨hk, h4⟩
            omega
          · omega
        have := hlt hk this; omega
    | neu =>
      simp only [QRec.need, hkb] at h1 h2; simp only [QRec.key, hka, hkb]
      split
      · rename_i hb'
        split
        · have := @hmono b.st.1 a.st.1 (by omega); omega
        · rename_i h
          have : b.st.1 < max a.st.1 a.st.2 := by
            by_cases h3 : b.st.1 = a.st.1
            · have : ¬ a.st.2 ≤ a.st.1 := fun h4 => h ⟨by rw [← h3]; exact hb'.1, h4⟩
              omega
            · omega
          have := hlt hb'.1 this; omega
      · split
        · have := @hmono (max b.st.1 b.st.2) a.st.1 (by omega); omega
        · have := @hmono (max b.st.1 b.st.2) (max a.st.1 a.st.2) (by omega); omega

end

/-! ### The invariant -/

structure QGood (fixed : Bool) (tr : List (Event (Op α) (Ret α) × (Nat × Nat))) (c : QC α) (R : List (QRec α)) : Prop where
  shape : QShape fixed c R
  nodup : (R.map (·.id)).Nodup
  invoked : ∀ x ∈ R, ∃ t, (evs tr)[x.id]? = some (.inv t x.op)
  stamp : ∀ x ∈ R, qst tr x.id = x.st
  complete : ∀ i j r, Returned (evs tr) i j r → ∃ x ∈ R, x.id = i ∧ x.ret = r
  retPos : ∀ x ∈ R, ∀ j r, Returned (evs tr) x.id j r → x.need.1 ≤ (qst tr j).1 ∧ x.need.2 ≤ (qst tr j).2
  time : R.Pairwise fun a b => ¬ ∃ j r, Returned (evs tr) b.id j r ∧ j < a.id
  idle : ∀ t, c.status t = .idle → ∀ i o, ¬ Pending (evs tr) t i o
  pend : ∀ t o b, c.status t = .pend o b →
    ∃ i, Pending (evs tr) t i o ∧ (∀ x ∈ R, x.id ≠ i) ∧ qst tr i = b ∧ b.1 ≤ c.nd ∧ b.2 ≤ c.vals.length
  done : ∀ t o r need, c.status t = .done o r need →
    ∃ i, Pending (evs tr) t i o ∧ ∃ x ∈ R, x.id = i ∧ x.ret = r ∧ x.need = need
  ret : ∀ x ∈ R, (∃ j, Returned (evs tr) x.id j x.ret) ∨
    ∃ t need, Pending (evs tr) t x.id x.op ∧ c.status t = .done x.op x.ret need

theorem qst_snoc_lt {tr : List (Event (Op α) (Ret α) × (Nat × Nat))} {e i} (hi : i < tr.length) :
    qst (tr ++ [e]) i = qst tr i := by
  simp [qst, List.getElem?_append_left hi]

theorem qst_snoc_eq {tr : List (Event (Op α) (Ret α) × (Nat × Nat))} {e : Event (Op α) (Ret α)} {s} :
    qst (tr ++ [(e, s)]) tr.length = s := by
  simp [qst]

section
variable {fixed : Bool} {tr : List (Event (Op α) (Ret α) × (Nat × Nat))} {c c' : QC α} {R : List (QRec α)}

theorem QGood.lt (g : QGood fixed tr c R) {x} (hx : x ∈ R) : x.id < tr.length := by
  obtain ⟨t, ht⟩ := g.invoked x hx
  have := lt_of_getElem? ht
  rwa [evs_length] at this

theorem QGood.initial : QGood fixed [] (QC.initial α) [] := by
  refine ⟨⟨rfl, rfl, Nat.le_refl _, nofun, fun _ _ _ _ => Nat.le_refl _, .nil⟩, .nil, nofun, nofun, ?_, nofun, .nil,
    ?_, nofun, nofun, nofun⟩
  · intro i j r hr; have := hr.lt; simp [evs] at this
  · intro t _ i o hp; have := hp.1; simp [evs] at this

theorem QShape.congr (hs : QShape fixed c R) (h1 : c'.vals = c.vals) (h2 : c'.nd = c.nd) (h3 : c'.tau = c.tau) :
    QShape fixed c' R := by
  refine ⟨by rw [h1]; exact hs.pushes, by rw [h2]; exact hs.pops, by rw [h1, h2]; exact hs.nd, ?_,
    by rw [h2, h3]; exact hs.mono, hs.after⟩
  intro x hx
  have := hs.ok x hx
  simp only [QRec.Ok, h1, h2, h3] at this ⊢
  exact this

theorem QGood.inv (g : QGood fixed tr c R) {t o b} (ht : c.status t = .idle) (hb1 : b.1 ≤ c.nd)
    (hb2 : b.2 ≤ c.vals.length) :
    QGood fixed (tr ++ [(.inv t o, b)]) { c with status := upd c.status t (.pend o b) } R := by
  have hst : ∀ x ∈ R, qst (tr ++ [(Event.inv t o, b)]) x.id = qst tr x.id := fun x hx => qst_snoc_lt (g.lt hx)
  have hR : ∀ {i j r}, Returned (evs tr ++ [.inv t o]) i j r ↔ Returned (evs tr) i j r := Returned.snoc_inv
  have hlen := evs_length tr
  refine ⟨g.shape.congr rfl rfl rfl, g.nodup, ?_, ?_, ?_, ?_, ?_, ?_, ?_, ?_, ?_⟩
  · intro x hx
    obtain ⟨t', h'⟩ := g.invoked x hx
    have := g.lt hx
    exact ⟨t', by rw [evs_snoc, getElem?_snoc, if_pos (by omega)]; exact h'⟩
  · intro x hx; rw [hst x hx]; exact g.stamp x hx
  · intro i j r hr
    rw [evs_snoc] at hr
    exact g.complete i j r (hR.1 hr)
  · intro x hx j r hr
    rw [evs_snoc] at hr
    have hr' := hR.1 hr
    rw [qst_snoc_lt (by have := hr'.lt; omega)]
    exact g.retPos x hx j r hr'
  · rw [evs_snoc]
    exact g.time.imp fun hab ⟨j, r, h1, h2⟩ => hab ⟨j, r, hR.1 h1, h2⟩
  · intro t' ht' i o' hp
    rw [evs_snoc] at hp
    by_cases h : t' = t
    · subst h; simp at ht'
    · simp only [upd_ne _ _ _ h] at ht'
      have hl : i < (evs tr).length := by
        have h1 := hp.1
        simp only [getElem?_snoc] at h1
        split at h1
        · assumption
        · split at h1
          · simp at h1; exact absurd h1.1.symm h
          · simp at h1
      exact g.idle t' ht' i o' (hp.unsnoc hl).1
  · intro t' o' b' hs
    rw [evs_snoc]
    by_cases h : t' = t
    · subst h
      simp only [upd_self, QStatus.pend.injEq] at hs
      obtain ⟨rfl, rfl⟩ := hs
      refine ⟨tr.length, ⟨by simp [hlen], ?_⟩, ?_, qst_snoc_eq, hb1, hb2⟩
      · intro k e hk he
        have := lt_of_getElem? he
        simp [hlen] at this; omega
      · intro x hx he
        have := g.lt hx; omega
    · simp only [upd_ne _ _ _ h] at hs
      obtain ⟨i, h1, h2, h3, h4⟩ := g.pend t' o' b' hs
      exact ⟨i, h1.snoc_ne (by simpa [Event.tid] using Ne.symm h), h2,
        by rw [qst_snoc_lt (by have := lt_of_getElem? h1.1; omega)]; exact h3, h4⟩
  · intro t' o' r k hs
    rw [evs_snoc]
    by_cases h : t' = t
    · subst h; simp at hs
    · simp only [upd_ne _ _ _ h] at hs
      obtain ⟨i, h1, h2⟩ := g.done t' o' r k hs
      exact ⟨i, h1.snoc_ne (by simpa [Event.tid] using Ne.symm h), h2⟩
  · intro x hx
    rw [evs_snoc]
    rcases g.ret x hx with ⟨j, h1⟩ | ⟨t', k, h1, h2⟩
    · exact .inl ⟨j, h1.snoc⟩
    · have h : t' ≠ t := by rintro rfl; rw [ht] at h2; cases h2
      exact .inr ⟨t', k, h1.snoc_ne (by simpa [Event.tid] using Ne.symm h), by simpa [upd_ne _ _ _ h] using h2⟩

theorem QRec.eq_of_id {R : List (QRec α)} (hn : (R.map (·.id)).Nodup) {x y : QRec α} (hx : x ∈ R) (hy : y ∈ R)
    (h : x.id = y.id) : x = y := by
  induction R with
  | nil => cases hx
  | cons z R ih =>
    simp only [List.map_cons, List.nodup_cons, List.mem_map, not_exists, not_and] at hn
    rcases List.mem_cons.1 hx with h1 | h1 <;> rcases List.mem_cons.1 hy with h2 | h2
    · rw [h1, h2]
    · subst h1; exact absurd h.symm (hn.1 y h2)
    · subst h2; exact absurd h (hn.1 x h1)
    · exact ih hn.2 h1 h2

theorem QGood.res (g : QGood fixed tr c R) {t o r need s} (ht : c.status t = .done o r need) (hn1 : need.1 ≤ s.1)
    (hn2 : need.2 ≤ s.2) :
    QGood fixed (tr ++ [(.res t r, s)]) { c with status := upd c.status t .idle } R := by
  have hlen := evs_length tr
  obtain ⟨i₀, hp₀, x₀, hm₀, hid₀, hret₀, hneed₀⟩ := g.done t o r need ht
  have hst : ∀ x ∈ R, qst (tr ++ [(Event.res t r, s)]) x.id = qst tr x.id := fun x hx => qst_snoc_lt (g.lt hx)
  have hnew : ∀ {i j r'}, Returned (evs tr ++ [.res t r]) i j r' →
      Returned (evs tr) i j r' ∨ (i = i₀ ∧ j = tr.length ∧ r' = r) := by
    intro i j r' hr
    by_cases hj : j < (evs tr).length
    · exact .inl ((Returned.snoc_old hj).1 hr)
    · obtain ⟨h1, h2, o', h3⟩ := hr.snoc_new hj
      exact .inr ⟨(h3.unique hp₀).1, by omega, h2⟩
  refine ⟨g.shape.congr rfl rfl rfl, g.nodup, ?_, ?_, ?_, ?_, ?_, ?_, ?_, ?_, ?_⟩
  · intro x hx
    obtain ⟨t', h'⟩ := g.invoked x hx
    have := g.lt hx
    exact ⟨t', by rw [evs_snoc, getElem?_snoc, if_pos (by omega)]; exact h'⟩
  · intro x hx; rw [hst x hx]; exact g.stamp x hx
  · intro i j r' hr
    rw [evs_snoc] at hr
    rcases hnew hr with h1 | ⟨rfl, _, rfl⟩
    · exact g.complete i j r' h1
    · exact ⟨x₀, hm₀, hid₀, hret₀⟩
  · intro x hx j r' hr
    rw [evs_snoc] at hr
    rcases hnew hr with h1 | ⟨h1, rfl, _⟩
    · rw [qst_snoc_lt (by have := h1.lt; omega)]
      exact g.retPos x hx j r' h1
    · have : x = x₀ := QRec.eq_of_id g.nodup hx hm₀ (by rw [h1, hid₀])
      subst this
      rw [qst_snoc_eq, hneed₀]; exact ⟨hn1, hn2⟩
  · rw [evs_snoc]
    refine g.time.imp_of_mem ?_
    rintro a b ha hb hab ⟨j, r', h1, h2⟩
    rcases hnew h1 with h1 | ⟨_, rfl, _⟩
    · exact hab ⟨j, r', h1, h2⟩
    · have := g.lt ha; omega
  · intro t' ht' i o' hp
    rw [evs_snoc] at hp
    have hl : i < (evs tr).length := by
      have h1 := hp.1
      simp only [getElem?_snoc] at h1
      split at h1
      · assumption
      · split at h1 <;> simp at h1
    have h1 := hp.unsnoc hl
    by_cases h : t' = t
    · subst h; exact h1.2 rfl
    · simp only [upd_ne _ _ _ h] at ht'
      exact g.idle t' ht' i o' h1.1
  · intro t' o' b' hs
    rw [evs_snoc]
    by_cases h : t' = t
    · subst h; simp at hs
    · simp only [upd_ne _ _ _ h] at hs
      obtain ⟨i, h1, h2, h3, h4⟩ := g.pend t' o' b' hs
      exact ⟨i, h1.snoc_ne (by simpa [Event.tid] using Ne.symm h), h2,
        by rw [qst_snoc_lt (by have := lt_of_getElem? h1.1; omega)]; exact h3, h4⟩
  · intro t' o' r' k hs
    rw [evs_snoc]
    by_cases h : t' = t
    · subst h; simp at hs
    · simp only [upd_ne _ _ _ h] at hs
      obtain ⟨i, h1, h2⟩ := g.done t' o' r' k hs
      exact ⟨i, h1.snoc_ne (by simpa [Event.tid] using Ne.symm h), h2⟩
  · intro x hx
    rw [evs_snoc]
    rcases g.ret x hx with ⟨j, h1⟩ | ⟨t', k', h1, h2⟩
    · exact .inl ⟨j, h1.snoc⟩
    · by_cases h : t' = t
      · subst h
        rw [ht] at h2
        simp only [QStatus.done.injEq] at h2
        obtain ⟨_, rfl, _⟩ := h2
        exact .inl ⟨_, h1.returned _⟩
      · exact .inr ⟨t', k', h1.snoc_ne (by simpa [Event.tid] using Ne.symm h),
          by simpa [upd_ne _ _ _ h] using h2⟩

/-- Placing a pending call. -/
theorem QGood.place (g : QGood fixed tr c R) {t o b i} {x : QRec α} (ht : c.status t = .pend o b)
    (hp : Pending (evs tr) t i o) (hnew : ∀ x ∈ R, x.id ≠ i) (hxi : x.id = i) (hxo : x.op = o)
    (hxs : x.st = qst tr i) (hstat : c'.status = upd c.status t (.done o x.ret x.need))
    (hsh : QShape fixed c' (R ++ [x])) (hnd : c.nd ≤ c'.nd) (hvl : c.vals.length ≤ c'.vals.length) :
    QGood fixed tr c' (R ++ [x]) := by
  have hmem : ∀ y, y ∈ R ++ [x] ↔ y ∈ R ∨ y = x := fun y => by simp
  refine ⟨hsh, ?_, ?_, ?_, ?_, ?_, ?_, ?_, ?_, ?_, ?_⟩
  · rw [List.map_append, List.nodup_append]
    refine ⟨g.nodup, by simp, ?_⟩
    intro a ha b' hb' hab
    obtain ⟨y, hy, rfl⟩ := List.mem_map.1 ha
    simp at hb'
    exact hnew y hy (by rw [hab, hb', hxi])
  · intro y hy
    rcases (hmem y).1 hy with hy | rfl
    · exact g.invoked y hy
    · exact ⟨t, by rw [hxi, hxo]; exact hp.1⟩
  · intro y hy
    rcases (hmem y).1 hy with hy | rfl
    · exact g.stamp y hy
    · rw [hxi, hxs]
  · intro i' j r' hr
    obtain ⟨y, hy, h⟩ := g.complete i' j r' hr
    exact ⟨y, (hmem _).2 (.inl hy), h⟩
  · intro y hy j r' hr
    rcases (hmem y).1 hy with hy | rfl
    · exact g.retPos y hy j r' hr
    · rw [hxi] at hr; exact absurd hr (hp.not_returned j r')
  · rw [List.pairwise_append]
    refine ⟨g.time, by simp, ?_⟩
    rintro a _ b' hb' ⟨j, r', hr, _⟩
    simp at hb'; subst hb'
    rw [hxi] at hr
    exact hp.not_returned _ _ hr
  · intro t' ht'
    rw [hstat] at ht'
    by_cases h : t' = t
    · subst h; simp at ht'
    · exact g.idle t' (by simpa [upd_ne _ _ _ h] using ht')
  · intro t' o' b' hs
    rw [hstat] at hs
    by_cases h : t' = t
    · subst h; simp at hs
    · obtain ⟨i', h6, h7, h8, h9, h10⟩ := g.pend t' o' b' (by simpa [upd_ne _ _ _ h] using hs)
      refine ⟨i', h6, fun y hy => ?_, h8, by omega, by omega⟩
      rcases (hmem y).1 hy with hy | rfl
      · exact h7 y hy
      · rw [hxi]; rintro rfl; exact hp.other h _ h6
  · intro t' o' r' k' hs
    rw [hstat] at hs
    by_cases h : t' = t
    · subst h
      simp only [upd_self, QStatus.done.injEq] at hs
      obtain ⟨rfl, rfl, rfl⟩ := hs
      exact ⟨i, hp, x, (hmem _).2 (.inr rfl), hxi, rfl, rfl⟩
    · obtain ⟨i', h6, y, hy, h7⟩ := g.done t' o' r' k' (by simpa [upd_ne _ _ _ h] using hs)
      exact ⟨i', h6, y, (hmem _).2 (.inl hy), h7⟩
  · intro y hy
    rcases (hmem y).1 hy with hy | rfl
    · rcases g.ret y hy with h | ⟨t', k', h6, h7⟩
      · exact .inl h
      · have h : t' ≠ t := by rintro rfl; rw [ht] at h7; cases h7
        exact .inr ⟨t', k', h6, by rw [hstat]; simpa [upd_ne _ _ _ h] using h7⟩
    · exact .inr ⟨t, y.need, by rw [hxi, hxo]; exact hp, by simp [hstat, hxo]⟩

theorem QGood.move (g : QGood fixed tr c R) {e} (m : QMove fixed c e c') : ∃ R', QGood fixed (tr ++ e.toList) c' R' := by
  have hsh := g.shape
  cases m with
  | stay => exact ⟨R, by simpa using g⟩
  | inv ht h1 h2 => exact ⟨R, g.inv ht h1 h2⟩
  | res ht h1 h2 => exact ⟨R, g.res ht h1 h2⟩
  | @push t bd v b ht =>
    obtain ⟨i, hp, hnew, hst, hb1, hb2⟩ := g.pend t _ b ht
    simp only [Option.toList, List.append_nil]
    refine ⟨R ++ [⟨i, .push bd v, .pushed true, .push (c.vals.length + 1), b⟩],
      g.place ht hp hnew rfl rfl hst.symm rfl ?_ (Nat.le_refl _) (by simp)⟩
    refine ⟨?_, ?_, ?_, ?_, hsh.mono, ?_⟩
    · simp only [List.filterMap_append, hsh.pushes, List.length_append, List.length_singleton]
      rw [List.range'_concat]
      simp [QKind.push?, Nat.add_comm]
    · rw [List.filterMap_append, hsh.pops]; simp [QKind.pop?]
    · have := hsh.nd; simp; omega
    · intro x hx
      simp only [List.mem_append, List.mem_singleton] at hx
      rcases hx with hx | rfl
      · have := hsh.ok x hx
        simp only [QRec.Ok] at this ⊢
        cases hk : x.kind <;> simp only [hk] at this ⊢
        · obtain ⟨⟨b', v', h1, h2, h3⟩, h4⟩ := this
          refine ⟨⟨b', v', h1, h2, ?_⟩, h4⟩
          rw [List.getElem?_append_left (by obtain ⟨h, _⟩ := List.getElem?_eq_some_iff.1 h3; exact h)]; exact h3
        · obtain ⟨⟨v', h1, h2, h3⟩, h4⟩ := this
          refine ⟨⟨v', h1, h2, ?_⟩, h4⟩
          rw [List.getElem?_append_left (by obtain ⟨h, _⟩ := List.getElem?_eq_some_iff.1 h3; exact h)]; exact h3
        · exact this
        · exact this
      · have := hsh.nd
        exact ⟨⟨bd, v, rfl, rfl, by simp⟩, by omega, by simp; omega, by simp; omega⟩
    · rw [List.pairwise_append]
      refine ⟨hsh.after, by simp, ?_⟩
      intro a ha b' hb' m m' h1 h2
      simp only [List.mem_singleton] at hb'; subst hb'
      simp only [QKind.push.injEq] at h2; subst h2
      have := hsh.ok a ha
      simp only [QRec.Ok, h1] at this
      have := hsh.nd
      omega
  | @pop t b v τ ht hv hτ hb =>
    obtain ⟨i, hp, hnew, hst, hb1, hb2⟩ := g.pend t _ b ht
    simp only [Option.toList, List.append_nil]
    obtain ⟨hlt, _⟩ := List.getElem?_eq_some_iff.1 hv
    refine ⟨R ++ [⟨i, .pop, .popped (some v), .pop (c.nd + 1), b⟩],
      g.place ht hp hnew rfl rfl hst.symm rfl ?_ (by simp) (Nat.le_refl _)⟩
    refine ⟨?_, ?_, ?_, ?_, ?_, ?_⟩
    · rw [List.filterMap_append, hsh.pushes]; simp [QKind.push?]
    · simp only [List.filterMap_append, hsh.pops]
      rw [List.range'_concat]
      simp [QKind.pop?, Nat.add_comm]
    · simp only; omega
    · intro x hx
      simp only [List.mem_append, List.mem_singleton] at hx
      rcases hx with hx | rfl
      · have := hsh.ok x hx
        simp only [QRec.Ok] at this ⊢
        cases hk : x.kind <;> simp only [hk] at this ⊢
        · exact this
        · obtain ⟨h1, h2, h3, h4, h5⟩ := this
          refine ⟨h1, h2, by omega, h4, ?_⟩
          rw [upd_ne _ _ _ (by omega)]; exact h5
        · obtain ⟨h1, h2, h3, h4, h5, h6⟩ := this
          refine ⟨h1, h2, by omega, h4, h5, ?_⟩
          rw [upd_ne _ _ _ (by omega)]; exact h6
        · exact this
      · exact ⟨⟨v, rfl, rfl, by simpa using hv⟩, by omega, Nat.le_refl _, by simp; omega, by simpa using hb⟩
    · intro a b' hab hb'
      simp only at hb'
      by_cases h1 : b' = c.nd + 1
      · subst h1
        simp only [upd_self]
        by_cases h2 : a = c.nd + 1
        · subst h2; simp
        · rw [upd_ne _ _ _ h2]
          exact Nat.le_trans (hsh.mono a c.nd (by omega) (Nat.le_refl _)) hτ
      · simp only [upd_ne _ _ _ h1]
        rw [upd_ne _ _ _ (by omega)]
        exact hsh.mono a b' hab (by omega)
    · rw [List.pairwise_append]
      refine ⟨hsh.after, by simp, ?_⟩
      intro a ha b' hb' m m' h1 h2
      simp only [List.mem_singleton] at hb'; subst hb'
      simp at h2
  | @emp t b k ht h1 h2 h3 h4 =>
    obtain ⟨i, hp, hnew, hst, hb1, hb2⟩ := g.pend t _ b ht
    simp only [Option.toList, List.append_nil]
    refine ⟨R ++ [⟨i, .pop, .popped none, .emp k, b⟩],
      g.place ht hp hnew rfl rfl hst.symm rfl ?_ (Nat.le_refl _) (Nat.le_refl _)⟩
    refine ⟨?_, ?_, hsh.nd, ?_, hsh.mono, ?_⟩
    · rw [List.filterMap_append, hsh.pushes]; simp [QKind.push?]
    · rw [List.filterMap_append, hsh.pops]; simp [QKind.pop?]
    · intro x hx
      simp only [List.mem_append, List.mem_singleton] at hx
      rcases hx with hx | rfl
      · exact hsh.ok x hx
      · exact ⟨rfl, rfl, h3, h1, h2, h4⟩
    · rw [List.pairwise_append]
      refine ⟨hsh.after, by simp, ?_⟩
      intro a ha b' hb' m m' h1 h2
      simp only [List.mem_singleton] at hb'; subst hb'
      simp at h2
  | @neu t o b r ht h1 =>
    obtain ⟨i, hp, hnew, hst, hb1, hb2⟩ := g.pend t _ b ht
    simp only [Option.toList, List.append_nil]
    refine ⟨R ++ [⟨i, o, r, .neu, b⟩],
      g.place ht hp hnew rfl rfl hst.symm rfl ?_ (Nat.le_refl _) (Nat.le_refl _)⟩
    refine ⟨?_, ?_, hsh.nd, ?_, hsh.mono, ?_⟩
    · rw [List.filterMap_append, hsh.pushes]; simp [QKind.push?]
    · rw [List.filterMap_append, hsh.pops]; simp [QKind.pop?]
    · intro x hx
      simp only [List.mem_append, List.mem_singleton] at hx
      rcases hx with hx | rfl
      · exact hsh.ok x hx
      · exact h1
    · rw [List.pairwise_append]
      refine ⟨hsh.after, by simp, ?_⟩
      intro a ha b' hb' m m' h1 h2
      simp only [List.mem_singleton] at hb'; subst hb'
      simp at h2

theorem QReach.good (hr : QReach fixed tr c) : ∃ R, QGood fixed tr c R := by
  induction hr with
  | init => exact ⟨_, .initial⟩
  | move _ m ih =>
    obtain ⟨R, g⟩ := ih
    exact g.move m

/-- Every history of the canonical weak queue is linearizable in any order `hb` contained in the order of
positions and stamps. Every call placed has returned or is `done`, and the run ends in the elements pushed and
not popped. -/
theorem QReach.linearization (hr : QReach fixed tr c) {hb : Nat → Nat → Prop}
    (hhb : ∀ j i t r t' o, (evs tr)[j]? = some (.res t r) → (evs tr)[i]? = some (.inv t' o) → hb j i →
      j < i ∧ (qst tr j).1 ≤ (qst tr i).1 ∧ (qst tr j).2 ≤ (qst tr i).2) :
    ∃ L, HbLinearization (spec α fixed) hb (evs tr) L ∧ Run (spec α fixed) [] L (c.vals.drop c.nd) ∧
      ∀ x ∈ L, (∃ j, Returned (evs tr) x.1 j x.2.2) ∨ ∃ t need, c.status t = .done x.2.1 x.2.2 need := by
  obtain ⟨R, g⟩ := hr.good
  have hs := g.shape
  obtain ⟨L, hperm, hsort⟩ := exists_sorted (fun x => x.key (seenEmpty R)) _ R (Pairwise.and' hs.seq g.time)
  have hmem : ∀ x, x ∈ L ↔ x ∈ R := fun x => hperm.mem_iff
  have hord : L.Pairwise QOrd := hsort.imp_of_mem fun {a b} ha hb h =>
    ord_of_key ((hmem b).1 hb) (h.imp_right fun h => ⟨h.1, h.2.1⟩)
  have hsub : ∀ f : QKind → Option Nat, (∀ a b : QRec α, QOrd a b → ∀ m m', f a.kind = some m → f b.kind = some m' → m < m') →
      ∀ n, R.filterMap (fun x => f x.kind) = List.range' 1 n → L.filterMap (fun x => f x.kind) = List.range' 1 n := by
    intro f hf n hn
    refine eq_range'_of_perm (by rw [← hn]; exact hperm.filterMap _) ?_
    rw [List.pairwise_filterMap]
    exact hord.imp fun h m h1 m' h2 => hf _ _ h m m' h1 h2
  have hrun : Run (spec α fixed) [] (L.map fun x => (x.id, x.op, x.ret)) (c.vals.drop c.nd) := by
    have := run_of_ord (fixed := fixed) (c := c) (B := L) (p := 0) (d := 0)
      (by
        refine hsub QKind.push? (fun a b h m m' h1 h2 => h.pp m m' ?_ ?_) _ hs.pushes
        · cases hk : a.kind <;> simp [hk, QKind.push?] at h1 ⊢; exact h1
        · cases hk : b.kind <;> simp [hk, QKind.push?] at h2 ⊢; exact h2)
      (by
        refine hsub QKind.pop? (fun a b h m m' h1 h2 => h.dd m m' ?_ ?_) _ hs.pops
        · cases hk : a.kind <;> simp [hk, QKind.pop?] at h1 ⊢; exact h1
        · cases hk : b.kind <;> simp [hk, QKind.pop?] at h2 ⊢; exact h2)
      (Nat.le_refl _) (Nat.zero_le _) (Nat.zero_le _) hs.nd hord (fun x hx => hs.ok x ((hmem x).1 hx))
      (fun _ _ _ _ => ⟨Nat.zero_le _, Nat.zero_le _⟩)
    simpa using this
  let f : QRec α → Nat × Op α × Ret α := fun x => (x.id, x.op, x.ret)
  refine ⟨L.map f, ⟨?_, ?_, ?_, ?_, ⟨_, hrun⟩⟩, hrun, ?_⟩
  · rw [List.map_map]
    exact (hperm.map (·.id)).nodup_iff.2 g.nodup
  · intro y hy
    obtain ⟨x, hx, rfl⟩ := List.mem_map.1 hy
    exact g.invoked x ((hmem x).1 hx)
  · intro i j r h
    obtain ⟨x, hx, rfl, rfl⟩ := g.complete i j r h
    exact ⟨x.op, List.mem_map.2 ⟨x, (hmem x).2 hx, rfl⟩⟩
  · rw [List.pairwise_map]
    refine hsort.imp_of_mem ?_
    rintro a b ha hb' hab ⟨j, r, h1, h2⟩
    have ha' := (hmem a).1 ha
    have hb'' := (hmem b).1 hb'
    obtain ⟨t, o, _, _, h3, _⟩ := id h1
    obtain ⟨t', ht'⟩ := g.invoked a ha'
    obtain ⟨h4, h5, h6⟩ := hhb _ _ _ _ _ _ h3 ht' h2
    obtain ⟨h7, h8⟩ := g.retPos b hb'' j r h1
    simp only [g.stamp a ha'] at h5 h6
    have hle := key_le hs ha' hb'' (Nat.le_trans h7 h5) (Nat.le_trans h8 h6)
    rcases hab with hab | ⟨_, _, hab⟩
    · omega
    · exact hab ⟨j, r, h1, h4⟩
  · intro y hy
    obtain ⟨x, hx, rfl⟩ := List.mem_map.1 hy
    rcases g.ret x ((hmem x).1 hx) with h | ⟨t, k, _, h⟩
    · exact .inl h
    · exact .inr ⟨t, k, h⟩

end
end Verif.Queue
