import Verif.Example

/-!
# The example programs: invariant

Counting of elements. `strip` maps the events of the container machine to those of its specification.
-/

namespace Verif.Lin
variable {Op Ret : Type}

theorem calls_snoc_inv (h : History Op Ret) (t : Nat) (o : Op) : calls (h ++ [.inv t o]) = calls h := by
  have hout : ∀ i < h.length, outcome (h ++ [.inv t o]) i = outcome h i := by
    intro i hi
    apply Option.ext
    rintro ⟨o', r⟩
    rw [outcome_iff, outcome_iff]
    constructor
    · rintro ⟨⟨u, hu⟩, j, hr⟩
      exact ⟨⟨u, by simpa [getElem?_snoc, hi] using hu⟩, j, Returned.snoc_inv.1 hr⟩
    · rintro ⟨⟨u, hu⟩, j, hr⟩
      exact ⟨⟨u, by simpa [getElem?_snoc, hi] using hu⟩, j, Returned.snoc_inv.2 hr⟩
  have hlast : outcome (h ++ [.inv t o]) h.length = none := by
    simp [outcome]
  simp only [calls, List.length_append, List.length_singleton, List.range_succ, List.filterMap_append, List.filterMap_cons,
    List.filterMap_nil, hlast, Option.map_none, List.append_nil]
  apply List.filterMap_congr
  intro i hi
  rw [hout i (by simpa using hi)]

theorem calls_snoc_res {h : History Op Ret} {t i : Nat} {o : Op} (hp : Pending h t i o) (r : Ret) :
    (calls (h ++ [.res t r])).Perm ((i, o, r) :: calls h) := by
  have hil := lt_of_getElem? hp.1
  have hnot : (i, o, r) ∉ calls h := by
    intro hm
    obtain ⟨_, j, hr⟩ := mem_calls.1 hm
    exact hp.not_returned _ _ hr
  refine (List.perm_ext_iff_of_nodup (calls_nodup _) (List.nodup_cons.2 ⟨hnot, calls_nodup _⟩)).2 ?_
  rintro ⟨k, o', r'⟩
  rw [List.mem_cons, mem_calls, mem_calls]
  constructor
  · rintro ⟨⟨u, hu⟩, j, hr⟩
    have hk : k < h.length := by have := hr.lt; simp at this; omega
    have hu' : h[k]? = some (.inv u o') := by simpa [getElem?_snoc, hk] using hu
    by_cases hj : j < h.length
    · exact .inr ⟨⟨u, hu'⟩, j, (Returned.snoc_old hj).1 hr⟩
    · obtain ⟨_, rfl, o₁, hp'⟩ := hr.snoc_new hj
      obtain ⟨rfl, rfl⟩ := hp.unique hp'
      rw [hp.1] at hu'
      cases hu'
      exact .inl rfl
  · rintro (h1 | ⟨⟨u, hu⟩, j, hr⟩)
    · cases h1
      exact ⟨⟨t, by simpa [getElem?_snoc, hil] using hp.1⟩, _, hp.returned r⟩
    · have hk := lt_of_getElem? hu
      exact ⟨⟨u, by simpa [getElem?_snoc, hk] using hu⟩, j, (Returned.snoc_old hr.lt.2).2 hr⟩

end Verif.Lin

namespace Verif.Example
open Lin

variable {S P Ch O R O' R' : Type}

/-- Mapping of events. -/
def strip (so : O → O') (sr : R → R') : Event O R → Event O' R'
  | .inv t o => .inv t (so o)
  | .res t r => .res t (sr r)

@[simp] theorem strip_tid (so : O → O') (sr : R → R') (e : Event O R) : (strip so sr e).tid = e.tid := by cases e <;> rfl

theorem map_strip_id {O R : Type} (h : History O R) : h.map (strip id id) = h := by
  conv => rhs; rw [← List.map_id h]
  apply List.map_congr_left
  intro e _
  cases e <;> rfl

/-! ### Sums over threads -/

section
variable {A : Type}

theorem flat_upd (f : Nat → A) (F : A → List Nat) {t : Nat} (q : A) : ∀ {n : Nat}, t < n →
    (((List.range n).flatMap fun u => F (upd f t q u)) ++ F (f t)).Perm (((List.range n).flatMap fun u => F (f u)) ++ F q)
  | 0, h => absurd h (by omega)
  | n + 1, h => by
    simp only [List.range_succ, List.flatMap_append, List.flatMap_singleton]
    by_cases ht : t = n
    · subst ht
      have : (List.range t).flatMap (fun u => F (upd f t q u)) = (List.range t).flatMap fun u => F (f u) := by
        apply List.flatMap_congr
        intro u hu
        rw [upd_ne _ _ _ (by simp at hu; omega)]
      rw [this, upd_self, List.append_assoc, List.append_assoc]
      exact List.perm_append_comm.append_left _
    · have ih := flat_upd f F q (n := n) (t := t) (by omega)
      rw [upd_ne _ _ _ (Ne.symm ht)]
      have h1 : ∀ a b c : List Nat, ((a ++ b) ++ c).Perm ((a ++ c) ++ b) := by
        intro a b c
        rw [List.append_assoc, List.append_assoc]
        exact List.perm_append_comm.append_left _
      exact (h1 _ _ _).trans ((ih.append_right _).trans (h1 _ _ _))

theorem flat_upd_ge (f : Nat → A) (F : A → List Nat) {t : Nat} (q : A) {n : Nat} (h : n ≤ t) :
    ((List.range n).flatMap fun u => F (upd f t q u)) = (List.range n).flatMap fun u => F (f u) := by
  apply List.flatMap_congr
  intro u hu
  rw [upd_ne _ _ _ (by simp at hu; omega)]

/-- Sum of `F` over the threads below `n`. -/
def total (F : A → Nat) (f : Nat → A) (n : Nat) : Nat := ((List.range n).map fun u => F (f u)).sum

theorem total_upd (F : A → Nat) (f : Nat → A) {t : Nat} (q : A) {n : Nat} (h : t < n) :
    total F (upd f t q) n + F (f t) = total F f n + F q := by
  induction n with
  | zero => omega
  | succ n ih =>
    simp only [total, List.range_succ, List.map_append, List.map_cons, List.map_nil, List.sum_append, List.sum_cons, List.sum_nil]
    by_cases ht : t = n
    · subst ht
      have : (List.range t).map (fun u => F (upd f t q u)) = (List.range t).map fun u => F (f u) := by
        apply List.map_congr_left
        intro u hu
        rw [upd_ne _ _ _ (by simp at hu; omega)]
      rw [this, upd_self]; omega
    · have := ih (by omega)
      rw [upd_ne _ _ _ (Ne.symm ht)]
      simp only [total] at this
      omega

theorem total_upd_ge (F : A → Nat) (f : Nat → A) {t : Nat} (q : A) {n : Nat} (h : n ≤ t) :
    total F (upd f t q) n = total F f n := by
  simp only [total]
  congr 1
  apply List.map_congr_left
  intro u hu
  rw [upd_ne _ _ _ (by simp at hu; omega)]

theorem total_const {F : A → Nat} {f : Nat → A} {n k : Nat} (h : ∀ u < n, F (f u) = k) : total F f n = n * k := by
  induction n with
  | zero => simp [total]
  | succ n ih =>
    have := ih fun u hu => h u (by omega)
    simp only [total] at this ⊢
    rw [List.range_succ]
    simp [this, h n (by omega), Nat.succ_mul]

end

/-! ### Invariant -/

/-- How the calls of the program appear in the specification. -/
structure Reads (m : Mach S P Ch O R) (x : Setup Ch R) (so : O → O') (sr : R → R') (push : Nat → O') (pop : O') (rpush res : R' → Option Bool)
    (put get : O' → R' → List Nat) : Prop where
  pushes : ∀ t s v s' p' e, m.step t s m.idle (x.push v) = some (s', p', e) → ∃ o, e = some (.inv t o) ∧ so o = push v
  pops : ∀ t s s' p' e, m.step t s m.idle x.pop = some (s', p', e) → ∃ o, e = some (.inv t o) ∧ so o = pop
  pushed : ∀ r, x.pushed r = rpush (sr r)
  popped : ∀ r, x.popped r = res (sr r)
  put_push : ∀ v r, put (push v) r = if rpush r = some true then [v] else []
  put_pop : ∀ r, put pop r = []
  get_push : ∀ v r, get (push v) r = []
  get_pop : ∀ r, (get pop r).length = if res r = some true then 1 else 0
  ne : ∀ v, push v ≠ pop

/-- What the completed calls of a history put into the container. -/
def allPut (put : O' → R' → List Nat) (b : History O' R') : List Nat := (calls b).flatMap fun c => put c.2.1 c.2.2

/-- The value a producer has counted and not yet pushed. -/
def held : PC P → List Nat
  | .at (.push _ v) | .call (.push _ v) _ => [v]
  | _ => []

/-- The number of elements a producer has pushed. -/
def progress (n : Nat) : PC P → Nat
  | .at (.forTest i) | .at (.count i) | .at (.push i _) | .call (.push i _) _ => i
  | .at .ended => n
  | _ => 0

/-- A consumer that has taken an element and not counted it. -/
def owed : PC P → Nat
  | .at (.counted _) => 1
  | _ => 0

/-- What a thread can be doing. -/
def Role (x : Setup Ch R) (t : Nat) : PC P → Prop
  | .at (.forTest _) | .at (.count _) | .at (.push _ _) | .call (.push _ _) _ => t < x.producers
  | .at .test | .at (.pop _) | .at (.counted _) | .call (.pop _) _ | .at .leave => x.producers ≤ t ∧ t < x.main
  | .at .ended => t < x.main
  | .at .terminated => t < x.main
  | .at .joinProducers | .at .setDone | .at .joinConsumers | .at .print => t = x.main
  | .at .absent => x.main < t
  | _ => False

/-- The operation of a call made at a place. -/
def opAt (push : Nat → O') (pop : O') : At → O' → Prop
  | .push _ v, o => o = push v
  | .pop _, o => o = pop
  | _, _ => False

/-- Every push has returned before position `i`. -/
def Late (push : Nat → O') (b : History O' R') (i : Nat) : Prop :=
  ∀ (k u v : Nat), b[k]? = some (.inv u (push v)) → ∃ j r, Returned b k j r ∧ j < i

structure Inv (m : Mach S P Ch O R) (x : Setup Ch R) (push : Nat → O') (pop : O') (res : R' → Option Bool)
    (put get : O' → R' → List Nat) (b : History O' R') (C : MConf (S × Vars) (PC P)) : Prop where
  role : ∀ t, Role x t (C.pc t)
  busy : ∀ t a p, C.pc t = .call a p → p ≠ m.idle ∧ ∃ i o, Pending b t i o ∧ opAt push pop a o
  rest : ∀ t a, C.pc t = .at a → ∀ i o, ¬ Pending b t i o
  ops : ∀ (i t : Nat) (o : O'), b[i]? = some (.inv t o) → (t < x.producers ∧ ∃ v, o = push v) ∨ (x.producers ≤ t ∧ t < x.main ∧ o = pop)
  split : ∀ (i t : Nat) (o : O'), b[i]? = some (.inv t o) → Pending b t i o ∨ ∃ j r, Returned b i j r
  values : (∀ t, C.pc t ≠ .at .terminated) →
    (allPut put b ++ (List.range x.producers).flatMap fun t => held (C.pc t)).Perm ((List.range C.s.2.producer_count).map (· + 1))
  prog : (∀ t, C.pc t ≠ .at .terminated) → (allPut put b).length = total (progress x.iterations) C.pc x.producers
  got : (allPut get b).length = C.s.2.consumer_count + total owed C.pc x.main
  ended : ∀ t, C.s.2.ended t = true → C.pc t = .at .ended
  main : C.pc x.main = .at .setDone ∨ C.pc x.main = .at .joinConsumers ∨ C.pc x.main = .at .print → ∀ t < x.producers, C.pc t = .at .ended
  done : C.s.2.done = true → C.pc x.main = .at .joinConsumers ∨ C.pc x.main = .at .print
  over : C.pc x.main = .at .print → ∀ t < x.main, C.pc t = .at .ended
  last : ∀ t, (C.pc t).here = .pop true ∨ (C.pc t).here = .counted true ∨ (C.pc t).here = .leave ∨
    (x.producers ≤ t ∧ (C.pc t).here = .ended) → C.s.2.done = true
  late : ∀ t p, C.pc t = .call (.pop true) p → ∀ i o, Pending b t i o → Late push b i
  final : ∀ t, x.producers ≤ t → C.pc t = .at .leave ∨ C.pc t = .at .ended →
    ∃ (i j : Nat) (r : R'), b[i]? = some (.inv t pop) ∧ Returned b i j r ∧ res r = some false ∧ Late push b i

section
variable {m : Mach S P Ch O R} {x : Setup Ch R} {push : Nat → O'} {pop : O'} {res : R' → Option Bool} {put get : O' → R' → List Nat}
  {b : History O' R'} {C : MConf (S × Vars) (PC P)}

theorem Inv.initial (s : S) : Inv m x push pop res put get [] (initial x s) := by
  have hmp : ¬ x.main < x.producers := Nat.not_lt.2 (Nat.le_add_right _ _)
  refine ⟨?_, ?_, ?_, by simp, by simp, ?_, ?_, ?_, ?_, ?_, ?_, ?_, ?_, ?_, ?_⟩
  · intro t
    simp only [Example.initial]
    split
    · assumption
    · split
      · exact ⟨by omega, by assumption⟩
      · split
        · assumption
        · have : x.main = x.producers + x.consumers := rfl
          simp only [Role]; omega
  · intro t a p h; simp [Example.initial] at h
  · intro t a _ i o h; have := h.1; simp at this
  · intro _
    have : ((List.range x.producers).flatMap fun t => held ((Example.initial (P := P) x s).pc t)) = [] := by
      rw [List.flatMap_eq_nil_iff]
      intro t ht
      simp only [Example.initial]
      rw [if_pos (by simpa using ht)]; rfl
    rw [this]; simp [allPut, calls, Example.initial]
  · intro _
    rw [total_const (k := 0)]
    · simp [allPut, calls]
    · intro u hu; simp only [Example.initial]; rw [if_pos hu]; rfl
  · rw [total_const (k := 0)]
    · simp [allPut, calls, Example.initial]
    · intro u hu
      simp only [Example.initial]
      split
      · rfl
      · rfl
  · intro t h; simp [Example.initial] at h
  · intro h; simp [Example.initial, hmp] at h
  · intro h; simp [Example.initial] at h
  · intro h; simp [Example.initial, hmp] at h
  · intro t h
    simp only [Example.initial, PC.here] at h
    split at h
    · simp at h
    · split at h
      · simp at h
      · split at h <;> simp at h
  · intro t p h; simp [Example.initial] at h
  · intro t _ h
    simp only [Example.initial] at h
    split at h
    · simp at h
    · split at h
      · simp at h
      · split at h <;> simp at h

/-- A step without event. -/
theorem Inv.silent (hi : Inv m x push pop res put get b C) {t : Nat} {q : PC P} {s' : S} {g' : Vars} (hrole : Role x t q)
    (hshape : (∃ a a', C.pc t = .at a ∧ q = .at a') ∨ ∃ a p p', C.pc t = .call a p ∧ q = .call a p' ∧ p' ≠ m.idle)
    (h0 : C.pc t ≠ .at .terminated) (he : C.pc t ≠ .at .ended)
    (hprog : t < x.producers → progress x.iterations q = progress x.iterations (C.pc t))
    (hheld : (held q = held (C.pc t) ∧ g'.producer_count = C.s.2.producer_count) ∨
      (held (C.pc t) = [] ∧ held q = [C.s.2.producer_count + 1] ∧ g'.producer_count = C.s.2.producer_count + 1 ∧ t < x.producers))
    (howed : g'.consumer_count + owed q = C.s.2.consumer_count + owed (C.pc t))
    (hended : g'.ended = C.s.2.ended ∨ (g'.ended = upd C.s.2.ended t true ∧ q = .at .ended))
    (hmain : t = x.main → q = .at .setDone ∨ q = .at .joinConsumers ∨ q = .at .print → ∀ u < x.producers, C.pc u = .at .ended)
    (hdone : g'.done = true → (t = x.main ∧ (q = .at .joinConsumers ∨ q = .at .print)) ∨ (t ≠ x.main ∧ C.s.2.done = true))
    (hmono : C.s.2.done = true → g'.done = true)
    (hover : t = x.main → q = .at .print → ∀ u < x.main, C.pc u = .at .ended)
    (hlast : q.here = .pop true ∨ q.here = .counted true ∨ q.here = .leave ∨ (x.producers ≤ t ∧ q.here = .ended) → g'.done = true)
    (hfin : x.producers ≤ t → q = .at .leave ∨ q = .at .ended → C.pc t = .at .leave) :
    Inv m x push pop res put get b ⟨(s', g'), upd C.pc t q⟩ := by
  have hpm : x.producers ≤ x.main := Nat.le_add_right _ _
  refine ⟨?_, ?_, ?_, hi.ops, hi.split, ?_, ?_, ?_, ?_, ?_, ?_, ?_, ?_, ?_, ?_⟩
  · intro u
    by_cases hu : u = t
    · subst hu; simpa using hrole
    · simp only [upd_ne _ _ _ hu]; exact hi.role u
  · intro u a p hp
    by_cases hu : u = t
    · subst hu
      simp only [upd_self] at hp
      subst hp
      rcases hshape with ⟨_, _, _, h⟩ | ⟨a', p', p'', h1, h2, h3⟩
      · cases h
      · cases h2
        exact ⟨h3, (hi.busy u _ _ h1).2⟩
    · simp only [upd_ne _ _ _ hu] at hp; exact hi.busy u _ _ hp
  · intro u a hp
    by_cases hu : u = t
    · subst hu
      simp only [upd_self] at hp
      subst hp
      rcases hshape with ⟨_, _, h1, _⟩ | ⟨_, _, _, _, h, _⟩
      · exact hi.rest u _ h1
      · cases h
    · simp only [upd_ne _ _ _ hu] at hp; exact hi.rest u _ hp
  · intro hnt
    have hnt' : ∀ u, C.pc u ≠ .at .terminated := by
      intro u
      by_cases hu : u = t
      · subst hu; exact h0
      · have := hnt u; simpa only [upd_ne _ _ _ hu] using this
    have h1 := hi.values hnt'
    by_cases ht : t < x.producers
    · have h2 := flat_upd C.pc held q ht
      rcases hheld with ⟨h3, h4⟩ | ⟨h3, h4, h5, _⟩
      · rw [h3] at h2
        have h2 := (List.perm_append_right_iff _).1 h2
        simp only; rw [h4]
        exact (h2.append_left _).trans h1
      · rw [h3, h4, List.append_nil] at h2
        simp only; rw [h5, List.range_succ, List.map_append]
        refine (h2.append_left _).trans ?_
        rw [← List.append_assoc]
        exact h1.append_right _
    · simp only
      rw [flat_upd_ge C.pc held q (by omega)]
      rcases hheld with ⟨_, h4⟩ | ⟨_, _, _, h⟩
      · rw [h4]; exact h1
      · exact absurd h ht
  · intro hnt
    have hnt' : ∀ u, C.pc u ≠ .at .terminated := by
      intro u
      by_cases hu : u = t
      · subst hu; exact h0
      · have := hnt u; simpa only [upd_ne _ _ _ hu] using this
    have h1 := hi.prog hnt'
    by_cases ht : t < x.producers
    · have h2 := total_upd (progress x.iterations) C.pc q ht
      rw [hprog ht] at h2
      simp only; omega
    · simp only
      rw [total_upd_ge _ _ _ (by omega)]; exact h1
  · have h1 := hi.got
    by_cases ht : t < x.main
    · have h2 := total_upd owed C.pc q ht
      simp only; omega
    · simp only
      rw [total_upd_ge _ _ _ (by omega)]
      have h3 : owed q = 0 ∧ owed (C.pc t) = 0 := by
        have a1 := hi.role t
        constructor
        · match q, hrole with
          | .at (.counted _), h => exact absurd h.2 ht
          | .at (.forTest _), _ | .at (.count _), _ | .at (.push _ _), _ | .at .test, _ | .at (.pop _), _ | .at .leave, _ | .at .ended, _
          | .at .joinProducers, _ | .at .setDone, _ | .at .joinConsumers, _ | .at .print, _ | .at .terminated, _ | .at .absent, _ | .call _ _, _ => rfl
        · generalize C.pc t = p at a1
          match p, a1 with
          | .at (.counted _), h => exact absurd h.2 ht
          | .at (.forTest _), _ | .at (.count _), _ | .at (.push _ _), _ | .at .test, _ | .at (.pop _), _ | .at .leave, _ | .at .ended, _
          | .at .joinProducers, _ | .at .setDone, _ | .at .joinConsumers, _ | .at .print, _ | .at .terminated, _ | .at .absent, _ | .call _ _, _ => rfl
      omega
  · intro u hu
    by_cases hut : u = t
    · subst hut
      simp only [upd_self]
      rcases hended with h | ⟨_, h⟩
      · exact absurd (hi.ended u (by rw [← h]; exact hu)) he
      · exact h
    · simp only [upd_ne _ _ _ hut]
      apply hi.ended u
      rcases hended with h | ⟨h, _⟩
      · rw [← h]; exact hu
      · simp only at hu; rw [h, upd_ne _ _ _ hut] at hu; exact hu
  · intro h u hu
    by_cases htm : t = x.main
    · subst htm
      simp only [upd_self] at h
      simp only
      rw [upd_ne _ _ _ (by omega)]
      exact hmain rfl h u hu
    · simp only [upd_ne _ _ _ (Ne.symm htm)] at h
      have h1 := hi.main h
      have hut : u ≠ t := by rintro rfl; exact he (h1 u hu)
      simp only [upd_ne _ _ _ hut]; exact h1 u hu
  · intro h
    rcases hdone h with ⟨rfl, h1⟩ | ⟨h1, h2⟩
    · simpa using h1
    · simp only [upd_ne _ _ _ (Ne.symm h1)]; exact hi.done h2
  · intro h u hu
    by_cases htm : t = x.main
    · subst htm
      simp only [upd_self] at h
      simp only
      rw [upd_ne _ _ _ (by omega)]
      exact hover rfl h u hu
    · simp only [upd_ne _ _ _ (Ne.symm htm)] at h
      have h1 := hi.over h
      have hut : u ≠ t := by rintro rfl; exact he (h1 u hu)
      simp only [upd_ne _ _ _ hut]; exact h1 u hu
  · intro u h
    by_cases hut : u = t
    · subst hut
      simp only [upd_self] at h
      exact hlast h
    · simp only [upd_ne _ _ _ hut] at h
      exact hmono (hi.last u h)
  · intro u p hp
    by_cases hut : u = t
    · subst hut
      simp only [upd_self] at hp
      subst hp
      rcases hshape with ⟨_, _, _, h⟩ | ⟨a', p', p'', h1, h2, h3⟩
      · cases h
      · cases h2
        exact hi.late u _ h1
    · simp only [upd_ne _ _ _ hut] at hp; exact hi.late u _ hp
  · intro u hu h
    by_cases hut : u = t
    · subst hut
      simp only [upd_self] at h
      exact hi.final u hu (.inl (hfin hu h))
    · simp only [upd_ne _ _ _ hut] at h; exact hi.final u hu h

/-- Once `done` is set all producers have ended. -/
theorem Inv.producers_ended (hi : Inv m x push pop res put get b C) (hd : C.s.2.done = true) {u : Nat} (hu : u < x.producers) :
    C.pc u = .at .ended :=
  hi.main (by rcases hi.done hd with h | h <;> simp [h]) u hu

theorem Late.snoc {e : Event O' R'} {i : Nat} (hl : Late push b i) (he : ∀ u v, e ≠ .inv u (push v)) : Late push (b ++ [e]) i := by
  intro k u v hk
  rw [getElem?_snoc] at hk
  split at hk
  · obtain ⟨j, r, h1, h2⟩ := hl k u v hk
    exact ⟨j, r, (Returned.snoc_old h1.lt.2).2 h1, h2⟩
  · split at hk
    · cases hk; exact absurd rfl (he u v)
    · cases hk

theorem Role.call_pop {t : Nat} {l : Bool} {p : P} (h : Role x t (.call (.pop l) p)) : x.producers ≤ t ∧ t < x.main := h

/-- A call. -/
theorem Inv.invoke (hi : Inv m x push pop res put get b C) (hne : ∀ v, push v ≠ pop) {t : Nat} {a : At} (hp : C.pc t = .at a) {o : O'} (ho : opAt push pop a o)
    {p' : P} (hp' : p' ≠ m.idle) {s' : S} :
    Inv m x push pop res put get (b ++ [.inv t o]) ⟨(s', C.s.2), upd C.pc t (.call a p')⟩ := by
  have hpm : x.producers ≤ x.main := Nat.le_add_right _ _
  have hr := hi.role t
  rw [hp] at hr
  have hrt : Role x t (.call a p') := by
    match a, ho, hr with
    | .push _ _, _, h => exact h
    | .pop _, _, h => exact h
  have htm : t < x.main := by
    match a, ho, hr with
    | .push _ _, _, h => exact Nat.lt_of_lt_of_le h hpm
    | .pop _, _, h => exact h.2
  have heq : held (P := P) (.call a p') = held (.at a : PC P) ∧ progress x.iterations (.call a p') = progress x.iterations (.at a : PC P) ∧
      owed (.call a p') = owed (.at a : PC P) := by
    match a, ho with
    | .push _ _, _ => exact ⟨rfl, rfl, rfl⟩
    | .pop _, _ => exact ⟨rfl, rfl, rfl⟩
  have hnt0 : (.at a : PC P) ≠ .at .terminated := by rintro h; cases h; exact ho
  have hne0 : (.at a : PC P) ≠ .at .ended := by rintro h; cases h; exact ho
  have hnt : (∀ u, (upd C.pc t (.call a p')) u ≠ .at .terminated) → ∀ u, C.pc u ≠ .at .terminated := by
    intro h u
    by_cases hu : u = t
    · subst hu; rw [hp]; exact hnt0
    · have := h u; rwa [upd_ne _ _ _ hu] at this
  -- a push comes before `done`
  have hpush : C.s.2.done = true → ∀ u v, (.inv t o : Event O' R') ≠ .inv u (push v) := by
    rintro hd u v h
    cases h
    match a, ho, hr with
    | .push _ _, _, h => have := hi.producers_ended hd h; rw [hp] at this; cases this
    | .pop _, h, _ => exact hne _ h
  have hall : ∀ (F : PC P → Nat) n, F (.call a p') = F (.at a) → total F (upd C.pc t (.call a p')) n = total F C.pc n := by
    intro F n hF
    by_cases ht : t < n
    · have := total_upd F C.pc (.call a p') ht
      rw [hp, hF] at this; omega
    · exact total_upd_ge _ _ _ (by omega)
  refine ⟨?_, ?_, ?_, ?_, ?_, ?_, ?_, ?_, ?_, ?_, ?_, ?_, ?_, ?_, ?_⟩
  · intro u
    by_cases hu : u = t
    · subst hu; simpa using hrt
    · simp only [upd_ne _ _ _ hu]; exact hi.role u
  · intro u a' p hup
    by_cases hu : u = t
    · subst hu
      simp only [upd_self] at hup
      cases hup
      refine ⟨hp', b.length, o, ⟨by simp, ?_⟩, ho⟩
      intro k e hk he
      have := lt_of_getElem? he
      simp at this; omega
    · simp only [upd_ne _ _ _ hu] at hup
      obtain ⟨h1, i, o', h2, h3⟩ := hi.busy u _ _ hup
      exact ⟨h1, i, o', h2.snoc_ne (Ne.symm hu), h3⟩
  · intro u a' hup i o' hpe
    by_cases hu : u = t
    · subst hu; simp at hup
    · simp only [upd_ne _ _ _ hu] at hup
      have h1 := lt_of_getElem? hpe.1
      simp at h1
      by_cases hib : i < b.length
      · exact hi.rest u _ hup i o' (hpe.unsnoc hib).1
      · have h2 := hpe.1
        have : i = b.length := by omega
        subst this
        simp at h2
        exact hu h2.1.symm
  · intro i u o' h
    rw [getElem?_snoc] at h
    split at h
    · exact hi.ops i u o' h
    · split at h
      · cases h
        match a, ho, hr with
        | .push _ v, h, h' => exact .inl ⟨h', v, h⟩
        | .pop _, h, h' => exact .inr ⟨h'.1, h'.2, h⟩
      · cases h
  · intro i u o' h
    rw [getElem?_snoc] at h
    split at h
    · rcases hi.split i u o' h with h1 | ⟨j, r, h1⟩
      · refine .inl (h1.snoc_ne ?_)
        rintro rfl
        exact hi.rest _ _ hp i o' h1
      · exact .inr ⟨j, r, (Returned.snoc_old h1.lt.2).2 h1⟩
    · split at h
      · cases h
        rename_i h2; subst h2
        refine .inl ⟨by simp, fun k e hk he => ?_⟩
        have := lt_of_getElem? he
        simp at this; omega
      · cases h
  · intro h
    have h1 := hi.values (hnt h)
    simp only [allPut, calls_snoc_inv]
    refine List.Perm.trans ?_ h1
    refine List.Perm.append_left _ ?_
    by_cases ht : t < x.producers
    · have h2 := flat_upd C.pc held (.call a p') ht
      rw [hp, heq.1] at h2
      exact (List.perm_append_right_iff _).1 h2
    · rw [flat_upd_ge C.pc held _ (by omega)]
  · intro h
    simp only [allPut, calls_snoc_inv]
    rw [hall _ _ heq.2.1]
    exact hi.prog (hnt h)
  · simp only [allPut, calls_snoc_inv]
    rw [hall _ _ heq.2.2]
    exact hi.got
  · intro u hu
    have h1 := hi.ended u hu
    have hut : u ≠ t := by rintro rfl; rw [hp] at h1; exact hne0 h1
    simpa only [upd_ne _ _ _ hut] using h1
  · intro h u hu
    simp only [upd_ne _ _ _ (show x.main ≠ t by omega)] at h
    have h1 := hi.main h u hu
    have hut : u ≠ t := by rintro rfl; rw [hp] at h1; exact hne0 h1
    simpa only [upd_ne _ _ _ hut] using h1
  · intro h
    simp only [upd_ne _ _ _ (show x.main ≠ t by omega)]
    exact hi.done h
  · intro h u hu
    simp only [upd_ne _ _ _ (show x.main ≠ t by omega)] at h
    have h1 := hi.over h u hu
    have hut : u ≠ t := by rintro rfl; rw [hp] at h1; exact hne0 h1
    simpa only [upd_ne _ _ _ hut] using h1
  · intro u h
    by_cases hut : u = t
    · subst hut
      simp only [upd_self] at h
      exact hi.last u (by rw [hp]; exact h)
    · simp only [upd_ne _ _ _ hut] at h
      exact hi.last u h
  · intro u p hup i o' hpe
    by_cases hut : u = t
    · subst hut
      simp only [upd_self] at hup
      cases hup
      have hd := hi.last u (by rw [hp]; exact .inl rfl)
      have hib : i = b.length := by
        have h1 := lt_of_getElem? hpe.1
        simp at h1
        by_cases hi' : i < b.length
        · exact absurd rfl (hpe.2 b.length (.inv u o) hi' (by simp))
        · omega
      subst hib
      intro k w v hk
      rw [getElem?_snoc] at hk
      split at hk
      · rename_i hkl
        rcases hi.split k w _ hk with h1 | ⟨j, r, h1⟩
        · have hw : w < x.producers := by
            rcases hi.ops k w _ hk with h | ⟨_, _, h⟩
            · exact h.1
            · exact absurd h (hne v)
          exact absurd h1 (hi.rest w _ (hi.producers_ended hd hw) k _)
        · exact ⟨j, r, (Returned.snoc_old h1.lt.2).2 h1, h1.lt.2⟩
      · split at hk
        · cases hk; exact absurd rfl (hpush hd _ v)
        · cases hk
    · simp only [upd_ne _ _ _ hut] at hup
      have hd := hi.last u (by rw [hup]; exact .inl rfl)
      have h1 := lt_of_getElem? hpe.1
      simp at h1
      by_cases hib : i < b.length
      · exact (hi.late u _ hup i o' (hpe.unsnoc hib).1).snoc (hpush hd)
      · have h2 := hpe.1
        have : i = b.length := by omega
        subst this
        simp at h2
        exact absurd h2.1.symm hut
  · intro u hu h
    have hut : u ≠ t := by rintro rfl; simp at h
    simp only [upd_ne _ _ _ hut] at h
    have hd : C.s.2.done = true := hi.last u (by rcases h with h | h <;> rw [h] <;> simp [PC.here, hu])
    obtain ⟨i, j, r, h1, h2, h3, h4⟩ := hi.final u hu h
    have := lt_of_getElem? h1
    exact ⟨i, j, r, by simpa [getElem?_snoc, this] using h1, (Returned.snoc_old h2.lt.2).2 h2, h3, h4.snoc (hpush hd)⟩

/-- A return. -/
theorem Inv.respond (hi : Inv m x push pop res put get b C) {t : Nat} {a : At} {p : P} (hp : C.pc t = .call a p) {r : R'} {w : Option Bool}
    (hput : ∀ i v, a = .push i v → put (push v) r = if w = some true then [v] else [])
    (hputp : ∀ l, a = .pop l → put pop r = []) (hgetp : ∀ i v, a = .push i v → get (push v) r = [])
    (hget : ∀ l, a = .pop l → (get pop r).length = if w = some true then 1 else 0) (hw : ∀ l, a = .pop l → res r = w) {s' : S} :
    Inv m x push pop res put get (b ++ [.res t r]) ⟨(s', C.s.2), upd C.pc t (.at (after a (w)))⟩ := by
  have hpm : x.producers ≤ x.main := Nat.le_add_right _ _
  have hr := hi.role t
  rw [hp] at hr
  obtain ⟨_, i, o, hpe, ho⟩ := hi.busy t _ _ hp
  have hil := lt_of_getElem? hpe.1
  have hcalls := calls_snoc_res hpe r
  have hputs : (allPut put (b ++ [.res t r])).Perm (put o r ++ allPut put b) := hcalls.flatMap_right _
  have hgets : (allPut get (b ++ [.res t r])).Perm (get o r ++ allPut get b) := hcalls.flatMap_right _
  -- a thread in a call is below `main`, and has not ended
  have htm : t < x.main := by
    match a, ho, hr with
    | .push _ _, _, h => exact Nat.lt_of_lt_of_le h hpm
    | .pop _, _, h => exact h.2
  have hrole : Role (P := P) x t (.at (after a (w))) := by
    match a, ho, hr with
    | .push i v, _, h =>
      match w with
      | none => exact htm
      | some true => exact h
      | some false => exact h
    | .pop l, _, h =>
      match l, w with
      | _, none => exact htm
      | _, some true => exact h
      | true, some false => exact h
      | false, some false => exact h
  have hmain : ∀ u, C.pc u = .at .ended → u ≠ t := by rintro u h rfl; rw [hp] at h; cases h
  have hnop : ∀ u v, (.res t r : Event O' R') ≠ .inv u (push v) := by simp
  have hpend : ∀ {u k o'}, u ≠ t → Pending (b ++ [.res t r]) u k o' → Pending b u k o' := by
    intro u k o' hu h
    have h1 := lt_of_getElem? h.1
    simp at h1
    by_cases hk : k < b.length
    · exact (h.unsnoc hk).1
    · have h2 := h.1
      have : k = b.length := by omega
      subst this
      simp at h2
  have hnt : (∀ u, (upd C.pc t (.at (after a (w)))) u ≠ .at .terminated) → w ≠ none ∧ ∀ u, C.pc u ≠ .at .terminated := by
    intro h
    refine ⟨fun h1 => ?_, fun u => ?_⟩
    · have := h t
      rw [upd_self, h1] at this
      exact this (by cases a <;> rfl)
    · by_cases hu : u = t
      · subst hu; rw [hp]; nofun
      · have := h u; rwa [upd_ne _ _ _ hu] at this
  refine ⟨?_, ?_, ?_, ?_, ?_, ?_, ?_, ?_, ?_, ?_, ?_, ?_, ?_, ?_, ?_⟩
  · intro u
    by_cases hu : u = t
    · subst hu; simpa using hrole
    · simp only [upd_ne _ _ _ hu]; exact hi.role u
  · intro u a' p hup
    have hu : u ≠ t := by rintro rfl; simp at hup
    simp only [upd_ne _ _ _ hu] at hup
    obtain ⟨h1, i, o', h2, h3⟩ := hi.busy u _ _ hup
    exact ⟨h1, i, o', h2.snoc_ne (Ne.symm hu), h3⟩
  · intro u a' hup k o' hpe'
    by_cases hu : u = t
    · subst hu
      have h1 := lt_of_getElem? hpe'.1
      simp at h1
      by_cases hk : k < b.length
      · exact (hpe'.2 b.length (.res u r) hk (by simp)) rfl
      · have h2 := hpe'.1
        have : k = b.length := by omega
        subst this
        simp at h2
    · simp only [upd_ne _ _ _ hu] at hup
      exact hi.rest u _ hup k o' (hpend hu hpe')
  · intro k u o' h
    rw [getElem?_snoc] at h
    split at h
    · exact hi.ops k u o' h
    · split at h <;> cases h
  · intro k u o' h
    rw [getElem?_snoc] at h
    split at h
    · rcases hi.split k u o' h with h1 | ⟨j, r, h1⟩
      · by_cases hu : u = t
        · subst hu
          obtain ⟨rfl, rfl⟩ := h1.unique hpe
          exact .inr ⟨_, _, hpe.returned r⟩
        · exact .inl (h1.snoc_ne (Ne.symm hu))
      · exact .inr ⟨j, r, (Returned.snoc_old h1.lt.2).2 h1⟩
    · split at h <;> cases h
  · intro h
    obtain ⟨h0, h⟩ := hnt h
    refine List.Perm.trans ?_ (hi.values h)
    simp only
    by_cases ht : t < x.producers
    · have h2 := flat_upd C.pc held (.at (after a (w))) ht
      rw [hp] at h2
      match a, ho, hr with
      | .push k v, ho, _ =>
        cases ho
        rw [hput _ _ rfl] at hputs
        cases w with
        | none => exact absurd rfl h0
        | some w' =>
          cases w' with
          | true =>
            simp only [if_pos, after, held, List.append_nil] at hputs h2 ⊢
            refine (hputs.append_right _).trans ?_
            refine (List.perm_append_comm.append_right _).trans ?_
            rw [List.append_assoc]
            exact List.Perm.append_left _ (List.perm_append_comm.trans h2)
          | false =>
            simp at hputs
            simp only [after, held, Bool.false_eq_true, if_false] at h2 ⊢
            exact hputs.append ((List.perm_append_right_iff _).1 h2)
      | .pop _, _, h' => exact absurd ht (by have := h'.1; omega)
    · rw [flat_upd_ge C.pc held _ (by omega)]
      match a, ho, hr with
      | .push k v, ho, h' => exact absurd h' ht
      | .pop _, ho, _ =>
        cases ho
        rw [hputp _ rfl] at hputs
        exact hputs.append_right _
  · intro h
    obtain ⟨h0, h⟩ := hnt h
    have h1 := hi.prog h
    simp only
    rw [hputs.length_eq, List.length_append, h1]
    by_cases ht : t < x.producers
    · have h2 := total_upd (progress x.iterations) C.pc (.at (after a (w))) ht
      rw [hp] at h2
      match a, ho, hr with
      | .push k v, ho, _ =>
        cases ho
        rw [hput _ _ rfl]
        cases w with
        | none => exact absurd rfl h0
        | some w' =>
          cases w' <;> simp [after, progress] at h2 ⊢ <;> omega
      | .pop _, _, h' => exact absurd ht (by have := h'.1; omega)
    · rw [total_upd_ge _ _ _ (by omega)]
      match a, ho, hr with
      | .push k v, ho, h' => exact absurd h' ht
      | .pop _, ho, _ =>
        cases ho
        rw [hputp _ rfl]; simp
  · have h1 := hi.got
    have h2 := total_upd owed C.pc (.at (after a (w))) htm
    rw [hp] at h2
    simp only
    rw [hgets.length_eq, List.length_append, h1]
    match a, ho, hr with
    | .push k v, ho, _ =>
      cases ho
      rw [hgetp _ _ rfl]
      match w with
      | none => simp [after, owed] at h2 ⊢; omega
      | some true => simp [after, owed] at h2 ⊢; omega
      | some false => simp [after, owed] at h2 ⊢; omega
    | .pop l, ho, _ =>
      cases ho
      rw [hget _ rfl]
      match l, w with
      | _, none => simp [after, owed] at h2 ⊢; omega
      | _, some true => simp [after, owed] at h2 ⊢; omega
      | true, some false => simp [after, owed] at h2 ⊢; omega
      | false, some false => simp [after, owed] at h2 ⊢; omega
  · intro u hu
    have h1 := hi.ended u hu
    simpa only [upd_ne _ _ _ (hmain u h1)] using h1
  · intro h u hu
    simp only [upd_ne _ _ _ (show x.main ≠ t by omega)] at h
    have h1 := hi.main h u hu
    simpa only [upd_ne _ _ _ (hmain u h1)] using h1
  · intro h
    simp only [upd_ne _ _ _ (show x.main ≠ t by omega)]
    exact hi.done h
  · intro h u hu
    simp only [upd_ne _ _ _ (show x.main ≠ t by omega)] at h
    have h1 := hi.over h u hu
    simpa only [upd_ne _ _ _ (hmain u h1)] using h1
  · intro u h
    by_cases hut : u = t
    · subst hut
      simp only [upd_self, PC.here] at h
      apply hi.last u
      rw [hp]
      match a, ho with
      | .push k v, _ =>
        match w with
        | none => simp [after] at h
        | some true => simp [after] at h
        | some false => simp [after] at h
      | .pop l, _ =>
        match l, w with
        | _, none => simp [after] at h
        | true, some _ => exact .inl rfl
        | false, some true => simp [after] at h
        | false, some false => simp [after] at h
    · simp only [upd_ne _ _ _ hut] at h
      exact hi.last u h
  · intro u p hup k o' hpe'
    have hut : u ≠ t := by rintro rfl; simp at hup
    simp only [upd_ne _ _ _ hut] at hup
    exact (hi.late u _ hup k o' (hpend hut hpe')).snoc hnop
  · intro u hu h
    by_cases hut : u = t
    · subst hut
      simp only [upd_self] at h
      match a, ho, hr, hp with
      | .push k v, _, h', _ => exact absurd h' (by simp only [Role]; omega)
      | .pop l, ho, _, hp =>
        match l, w with
        | _, none => simp [after] at h
        | _, some true => simp [after] at h
        | false, some false => simp [after] at h
        | true, some false =>
          cases ho
          exact ⟨i, b.length, r, by simpa [getElem?_snoc, hil] using hpe.1, hpe.returned r, hw _ rfl, (hi.late u _ hp i _ hpe).snoc hnop⟩
    · simp only [upd_ne _ _ _ hut] at h
      obtain ⟨i, j, r, h1, h2, h3, h4⟩ := hi.final u hu h
      have := lt_of_getElem? h1
      exact ⟨i, j, r, by simpa [getElem?_snoc, this] using h1, (Returned.snoc_old h2.lt.2).2 h2, h3, h4.snoc hnop⟩

/-- Every step. -/
theorem Inv.step {ok : S → P → Ch → Prop} {so : O → O'} {sr : R → R'} {rpush : R' → Option Bool} (hpl : Plays m x ok) (hrd : Reads m x so sr push pop rpush res put get)
    (hi : Inv m x push pop res put get b C) {t : Nat} {ch σ' p' e} (hs : (mach m x).step t C.s (C.pc t) ch = some (σ', p', e)) :
    Inv m x push pop res put get (b ++ (e.map (strip so sr)).toList) ⟨σ', upd C.pc t p'⟩ := by
  have hpm : x.producers ≤ x.main := Nat.le_add_right _ _
  have hs' := trans_of_step hs
  have hr := hi.role t
  generalize hp : C.pc t = p at hs' hr
  obtain ⟨s₂, g₂⟩ := σ'
  simp only at hs'
  cases hs' with
  | exit h1 _ =>
    simp only [Role] at hr
    simp only [Option.map_none, Option.toList_none, List.append_nil]
    refine hi.silent (show t < x.main by omega) (.inl ⟨_, _, hp, rfl⟩) ?_ ?_ ?_ (.inl ⟨?_, rfl⟩) ?_ (.inr ⟨rfl, rfl⟩) ?_ ?_ id ?_ ?_ ?_ <;> try rw [hp]
    · simp
    · simp
    · intro _; exact h1.symm
    · rfl
    · rfl
    · simp
    · intro h; exact .inr ⟨by omega, h⟩
    · simp
    · simp [PC.here]; omega
    · intro h; omega
  | more h1 =>
    simp only [Role] at hr
    simp only [Option.map_none, Option.toList_none, List.append_nil]
    refine hi.silent hr (.inl ⟨_, _, hp, rfl⟩) ?_ ?_ ?_ (.inl ⟨?_, rfl⟩) ?_ (.inl rfl) ?_ ?_ id ?_ ?_ ?_ <;> try rw [hp]
    · simp
    · simp
    · intro _; rfl
    · rfl
    · rfl
    · simp
    · intro h; exact .inr ⟨by omega, h⟩
    · simp
    · simp [PC.here]
    · simp
  | count =>
    simp only [Role] at hr
    simp only [Option.map_none, Option.toList_none, List.append_nil]
    refine hi.silent hr (.inl ⟨_, _, hp, rfl⟩) ?_ ?_ ?_ (.inr ⟨?_, rfl, rfl, hr⟩) ?_ (.inl rfl) ?_ ?_ id ?_ ?_ ?_ <;> try rw [hp]
    · simp
    · simp
    · intro _; rfl
    · rfl
    · rfl
    · simp
    · intro h; exact .inr ⟨by omega, h⟩
    · simp
    · simp [PC.here]
    · simp
  | see h1 _ =>
    simp only [Role] at hr
    simp only [Option.map_none, Option.toList_none, List.append_nil]
    refine hi.silent hr (.inl ⟨_, _, hp, rfl⟩) ?_ ?_ ?_ (.inl ⟨?_, rfl⟩) ?_ (.inl rfl) ?_ ?_ id ?_ ?_ ?_ <;> try rw [hp]
    · simp
    · simp
    · intro _; rfl
    · rfl
    · rfl
    · simp
    · intro h; exact .inr ⟨by omega, h⟩
    · simp
    · intro _; exact h1
    · simp
  | test =>
    simp only [Role] at hr
    simp only [Option.map_none, Option.toList_none, List.append_nil]
    refine hi.silent hr (.inl ⟨_, _, hp, rfl⟩) ?_ ?_ ?_ (.inl ⟨?_, rfl⟩) ?_ (.inl rfl) ?_ ?_ id ?_ ?_ ?_ <;> try rw [hp]
    · simp
    · simp
    · intro _; rfl
    · rfl
    · rfl
    · simp
    · intro h; exact .inr ⟨by omega, h⟩
    · simp
    · simp [PC.here]
    · simp
  | @counted last =>
    simp only [Role] at hr
    simp only [Option.map_none, Option.toList_none, List.append_nil]
    refine hi.silent hr (.inl ⟨_, _, hp, rfl⟩) ?_ ?_ ?_ (.inl ⟨?_, rfl⟩) ?_ (.inl rfl) ?_ ?_ id ?_ ?_ ?_ <;> try rw [hp]
    · simp
    · simp
    · intro h; omega
    · rfl
    · rfl
    · simp
    · intro h; exact .inr ⟨by omega, h⟩
    · simp
    · intro h
      simp [PC.here] at h
      exact hi.last t (by rw [hp]; simp [PC.here, h])
    · simp
  | leave =>
    simp only [Role] at hr
    simp only [Option.map_none, Option.toList_none, List.append_nil]
    refine hi.silent hr.2 (.inl ⟨_, _, hp, rfl⟩) ?_ ?_ ?_ (.inl ⟨?_, rfl⟩) ?_ (.inr ⟨rfl, rfl⟩) ?_ ?_ id ?_ ?_ ?_ <;> try rw [hp]
    · simp
    · simp
    · intro h; omega
    · rfl
    · rfl
    · simp
    · intro h; exact .inr ⟨by omega, h⟩
    · simp
    · intro _
      exact hi.last t (by rw [hp]; simp [PC.here])
    · simp
  | join h1 _ =>
    simp only [Role] at hr
    simp only [Option.map_none, Option.toList_none, List.append_nil]
    have hd : C.s.2.done = true → False := fun h => by
      rcases hi.done h with h | h <;> rw [← hr, hp] at h <;> cases h
    refine hi.silent hr (.inl ⟨_, _, hp, rfl⟩) ?_ ?_ ?_ (.inl ⟨?_, rfl⟩) ?_ (.inl rfl) ?_ ?_ id ?_ ?_ ?_ <;> try rw [hp]
    · simp
    · simp
    · intro h; omega
    · rfl
    · rfl
    · intro _ _ u hu; exact hi.ended u (h1 u hu)
    · intro h; exact (hd h).elim
    · simp
    · simp [PC.here]
    · simp
  | publish _ =>
    simp only [Role] at hr
    simp only [Option.map_none, Option.toList_none, List.append_nil]
    refine hi.silent hr (.inl ⟨_, _, hp, rfl⟩) ?_ ?_ ?_ (.inl ⟨?_, rfl⟩) ?_ (.inl rfl) ?_ ?_ (fun _ => rfl) ?_ ?_ ?_ <;> try rw [hp]
    · simp
    · simp
    · intro h; omega
    · rfl
    · rfl
    · intro _ _; exact hi.main (by rw [← hr, hp]; simp)
    · intro h; exact .inl ⟨hr, .inl rfl⟩
    · simp
    · simp [PC.here]
    · simp
  | joined h1 =>
    simp only [Role] at hr
    simp only [Option.map_none, Option.toList_none, List.append_nil]
    have hpe : ∀ u < x.producers, C.pc u = .at .ended := hi.main (by rw [← hr, hp]; simp)
    refine hi.silent hr (.inl ⟨_, _, hp, rfl⟩) ?_ ?_ ?_ (.inl ⟨?_, rfl⟩) ?_ (.inl rfl) ?_ ?_ id ?_ ?_ ?_ <;> try rw [hp]
    · simp
    · simp
    · intro h; omega
    · rfl
    · rfl
    · intro _ _; exact hpe
    · intro h; exact .inl ⟨hr, .inr rfl⟩
    · intro _ _ u hu
      by_cases h : u < x.producers
      · exact hpe u h
      · have : u = x.producers + (u - x.producers) := by omega
        rw [this]
        exact hi.ended _ (h1 _ (by have : x.main = x.producers + x.consumers := rfl; omega))
    · simp [PC.here]
    · simp
  | push h =>
    obtain ⟨h1, _⟩ := hpl.push _ _ _ _ _ _ h
    obtain ⟨o, rfl, h3⟩ := hrd.pushes _ _ _ _ _ _ h
    exact hi.invoke hrd.ne hp (o := so o) h3 h1
  | pop h =>
    obtain ⟨h1, _⟩ := hpl.pop _ _ _ _ _ h
    obtain ⟨o, rfl, h3⟩ := hrd.pops _ _ _ _ _ h
    exact hi.invoke hrd.ne hp (o := so o) h3 h1
  | @inside a p ch s' p' e h h1 =>
    have h2 : e = none ∧ p' ≠ m.idle := by
      rcases hpl.step _ _ _ _ _ _ _ (hi.busy t _ _ hp).1 h with h3 | ⟨r, h3, _⟩
      · exact h3
      · exact absurd h3 (h1 t r)
    obtain ⟨rfl, h2⟩ := h2
    have hr' : Role x t (.call a p') := by
      match a, hr with
      | .push _ _, h => exact h
      | .pop _, h => exact h
    have heq : held (P := P) (.call a p') = held (.call a p) ∧ progress x.iterations (.call a p') = progress x.iterations (.call a p) ∧
        owed (.call a p') = owed (.call a p) := by
      match a, hr with
      | .push _ _, _ => exact ⟨rfl, rfl, rfl⟩
      | .pop _, _ => exact ⟨rfl, rfl, rfl⟩
    have htm : t < x.main := by
      match a, hr with
      | .push _ _, h => exact Nat.lt_of_lt_of_le h hpm
      | .pop _, h => exact h.2
    simp only [Option.map_none, Option.toList_none, List.append_nil]
    refine hi.silent hr' (.inr ⟨_, _, _, hp, rfl, h2⟩) ?_ ?_ ?_ (.inl ⟨?_, rfl⟩) ?_ (.inl rfl) ?_ ?_ id ?_ ?_ ?_ <;> try rw [hp]
    · simp
    · simp
    · intro _; exact heq.2.1
    · exact heq.1
    · rw [heq.2.2]
    · simp
    · intro h; exact .inr ⟨by omega, h⟩
    · simp
    · intro h; exact hi.last t (by rw [hp]; exact h)
    · simp
  | @finish a p ch s' p' u r h =>
    have h2 : u = t := by
      rcases hpl.step _ _ _ _ _ _ _ (hi.busy t _ _ hp).1 h with ⟨h3, _⟩ | ⟨r, h3, _⟩
      · cases h3
      · cases h3; rfl
    subst h2
    refine hi.respond hp (r := sr r) ?_ ?_ ?_ ?_ ?_
    · rintro i v rfl
      rw [hrd.put_push, Setup.result, hrd.pushed]
    · rintro l rfl
      exact hrd.put_pop _
    · rintro i v rfl
      exact hrd.get_push _ _
    · rintro l rfl
      rw [hrd.get_pop, Setup.result, hrd.popped]
      nofun
    · rintro l rfl
      rw [Setup.result, hrd.popped]
      nofun

theorem Runs.inv {ok : S → P → Ch → Prop} {so : O → O'} {sr : R → R'} {rpush : R' → Option Bool} (hpl : Plays m x ok) (hrd : Reads m x so sr push pop rpush res put get)
    {s h} {C : MConf (S × Vars) (PC P)} (hx : Runs m x ok s h C) : Inv m x push pop res put get (h.map (strip so sr)) C := by
  induction hx with
  | refl => exact Inv.initial s
  | @step h C t ch σ' p' e hx hs hok ih =>
    have := ih.step hpl hrd hs
    rw [List.map_append]
    cases e <;> exact this

end

end Verif.Example
