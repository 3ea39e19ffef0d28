import Verif.Calls
import Verif.Queue.Reach

/-!
# Queue: linearizability, order, conservation (C26, C27)
-/

namespace Verif.Queue
open Lin

variable {α : Type} {cfg : Cfg} {n : Nat} {h : History (Op α) (Ret α)} {C : Conf α}

/-! ### C26: linearizability -/

/-- **C26.** Every history of the queue (any number of threads, any schedule, spurious failures, node reuse,
torn reads of recycled words, throwing user code) in which no tag wraps completely between a load and the
corresponding comparison is linearizable to the sequential FIFO queue. -/
theorem queue_linearizable (hx : FreshExec cfg n h C) : Linearizable (spec α cfg.fixed) h := by
  obtain ⟨g, c, _, hr⟩ := hx.inv
  exact hr.linearizable

/-- With ideal (unbounded) tags no hypothesis on the schedule is needed. -/
theorem queue_linearizable_ideal (hM : cfg.M = 0) (hx : Exec cfg n h C) : Linearizable (spec α cfg.fixed) h :=
  queue_linearizable (hx.fresh (.inl hM))

/-- With `M` tags, every execution in which each tagged word was changed fewer than `M` times (`head_`,
`tail_`, the freelist head by removals, each node's `next` by pushes) is linearizable. -/
theorem queue_linearizable_of_few_changes (hx : Exec cfg n h C) (h1 : C.s.headVer < cfg.M)
    (h2 : C.s.tailVer < cfg.M) (h3 : C.s.heap.poolVer < cfg.M)
    (h4 : ∀ x < C.s.heap.nalloc, C.s.heap.nver x < cfg.M) : Linearizable (spec α cfg.fixed) h :=
  queue_linearizable (hx.fresh (.inr ⟨h1, h2, h3, h4⟩))

/-! ### C27: order and conservation -/

/-- Value a completed call put into the queue. -/
def pushedBy : Op α → Ret α → Option α
  | .push _ v, .pushed true => some v
  | _, _ => none

/-- Value a completed call handed to the caller. -/
def handedBy : Op α → Ret α → Option α
  | .pop, .popped v => v
  | _, _ => none

/-- Value a call offers for pushing. -/
def offeredBy : Op α → Option α
  | .push _ v => some v
  | _ => none

/-- Value put into the queue by an entry of a linearization. -/
def putBy (x : Nat × Op α × Ret α) : Option α := pushedBy x.2.1 x.2.2
/-- Value handed out by an entry of a linearization. -/
def gotBy (x : Nat × Op α × Ret α) : Option α := handedBy x.2.1 x.2.2

/-- Values accepted by the completed push calls of a history. -/
def accepted (h : History (Op α) (Ret α)) : List α := (calls h).filterMap putBy
/-- Values handed out by the completed pop calls of a history. -/
def delivered (h : History (Op α) (Ret α)) : List α := (calls h).filterMap gotBy
/-- Values offered by the push calls of a history, completed or not. -/
def offered (h : History (Op α) (Ret α)) : List α := (invs h).filterMap fun x => offeredBy x.2

theorem putBy_iff {i : Nat} {o : Op α} {r : Ret α} {y : α} :
    putBy (i, o, r) = some y ↔ ∃ b, o = .push b y ∧ r = .pushed true := by
  simp only [putBy]
  constructor
  · intro h
    unfold pushedBy at h
    split at h <;> simp at h
    subst h
    exact ⟨_, rfl, rfl⟩
  · rintro ⟨b, rfl, rfl⟩; rfl

theorem specStep_fifo {fixed : Bool} {σ σ' : List α} {o r} (hs : specStep fixed σ o r σ') :
    (handedBy o r).toList ++ σ' = σ ++ (pushedBy o r).toList := by
  unfold specStep at hs
  split at hs
  · rcases hs with ⟨rfl, rfl⟩ | ⟨rfl, _, rfl⟩ <;> simp [handedBy, pushedBy]
  · simp [handedBy, pushedBy, hs]
  · obtain ⟨rfl, rfl⟩ := hs; simp [handedBy, pushedBy]
  · simp [handedBy, pushedBy, hs]
  · simp [handedBy, pushedBy, hs]
  · simp [handedBy, pushedBy, hs]
  · simp [handedBy, pushedBy, hs]
  · simp [handedBy, pushedBy, hs]
  · exact hs.elim

/-- In a legal sequential run the values handed out followed by those left are the values present at the
beginning followed by those pushed, in this order. -/
theorem run_fifo {fixed : Bool} {σ σ' : List α} {L} (hr : Run (spec α fixed) σ L σ') :
    L.filterMap gotBy ++ σ' = σ ++ L.filterMap putBy := by
  have key : ∀ {A : Type} (f : A → Option α) x l, (x :: l).filterMap f = (f x).toList ++ l.filterMap f := by
    intro A f x l
    cases hx : f x <;> simp [hx]
  induction L generalizing σ with
  | nil => have : σ = σ' := Run.nil_inv hr; simp [this]
  | cons x L ih =>
    obtain ⟨i, o, r⟩ := x
    obtain ⟨τ, hs, hr'⟩ : ∃ τ : List α, specStep fixed σ o r τ ∧ Run (spec α fixed) τ L σ' := Run.cons_inv hr
    have h1 := specStep_fifo hs
    rw [key, key, List.append_assoc, ih hr', ← List.append_assoc]
    show (handedBy o r).toList ++ τ ++ _ = _
    rw [h1, List.append_assoc]; rfl

theorem run_prefix {fixed : Bool} {σ : List α} {L} (hr : Run (spec α fixed) (spec α fixed).init L σ) :
    L.filterMap gotBy <+: L.filterMap putBy := ⟨σ, by simpa [spec] using run_fifo hr⟩

/-- **C27 (FIFO).** There is a linearization in which the values handed out, in order, are a prefix of the values
accepted, in order. -/
theorem queue_fifo (hx : FreshExec cfg n h C) :
    ∃ L, Linearization (spec α cfg.fixed) h L ∧
      L.filterMap gotBy <+: L.filterMap putBy := by
  obtain ⟨L, hl⟩ := queue_linearizable hx
  obtain ⟨σ, hr⟩ := hl.legal
  exact ⟨L, hl, run_prefix hr⟩

theorem two_orders {A : Type} {v w : A} (hne : v ≠ w) {U : List A} (h1 : [v, w].Sublist U) (h2 : [w, v].Sublist U) :
    [v, v].Sublist U ∨ [w, w].Sublist U := by
  induction U with
  | nil => simp at h1
  | cons x U ih =>
    by_cases hv : x = v
    · subst hv
      left
      have : [w, x].Sublist U := by
        cases h2 with
        | cons _ h => exact h
        | cons_cons _ h => exact absurd rfl hne
      have hm : x ∈ U := this.subset (by simp)
      exact (List.singleton_sublist.2 hm).cons_cons x
    · by_cases hw : x = w
      · subst hw
        right
        have : [v, x].Sublist U := by
          cases h1 with
          | cons _ h => exact h
          | cons_cons _ h => exact absurd rfl hv
        have hm : x ∈ U := this.subset (by simp)
        exact (List.singleton_sublist.2 hm).cons_cons x
      · have h3 : [v, w].Sublist U := by
          cases h1 with
          | cons _ h => exact h
          | cons_cons _ h => exact absurd rfl hv
        have h4 : [w, v].Sublist U := by
          cases h2 with
          | cons _ h => exact h
          | cons_cons _ h => exact absurd rfl hw
        rcases ih h3 h4 with h | h
        · exact .inl (h.cons x)
        · exact .inr (h.cons x)

theorem pair_or {A : Type} {L : List A} {a b : A} (ha : a ∈ L) (hb : b ∈ L) (hne : a ≠ b) :
    [a, b].Sublist L ∨ [b, a].Sublist L := by
  induction L with
  | nil => simp at ha
  | cons x L ih =>
    by_cases h1 : a = x
    · subst h1
      have : b ∈ L := by simpa [Ne.symm hne] using hb
      exact .inl ((List.singleton_sublist.2 this).cons_cons a)
    · by_cases h2 : b = x
      · subst h2
        have : a ∈ L := by simpa [hne] using ha
        exact .inr ((List.singleton_sublist.2 this).cons_cons b)
      · rcases ih (by simpa [h1] using ha) (by simpa [h2] using hb) with h | h
        · exact .inl (h.cons x)
        · exact .inr (h.cons x)

theorem HbLinearization.queue_order {fixed : Bool} {hb : Nat → Nat → Prop} {L}
    (hl : HbLinearization (spec α fixed) hb h L) {v w : α} (hne : v ≠ w) {i j i' : Nat} {t' b'}
    (hv : ∀ k t b, h[k]? = some (.inv t (.push b v)) → k = i)
    (hw : ∀ k t b, h[k]? = some (.inv t (.push b w)) → k = i')
    (hpv : Returned h i j (.pushed true)) (hpv' : ∃ t b, h[i]? = some (.inv t (.push b v)))
    (hpw : h[i']? = some (.inv t' (.push b' w))) (hlt : j < i') (hhb : hb j i')
    {p pj q qj : Nat} (hqv : Returned h q qj (.popped (some v))) (hqw : Returned h p pj (.popped (some w))) :
    ¬ hb pj q := by
  intro hcon
  obtain ⟨σ, hrun⟩ := hl.legal
  have hpre := run_prefix hrun
  have spec_of : ∀ {i o r}, (i, o, r) ∈ L → ∃ τ τ' : List α, specStep fixed τ o r τ' := by
    intro i o r hm
    obtain ⟨L₁, L₂, rfl⟩ := List.append_of_mem hm
    obtain ⟨σ₁, σ₂, _, h2, _⟩ := hrun.split
    exact ⟨σ₁, σ₂, h2⟩
  have hpopv : ∀ {q qj : Nat} {u : α}, Returned h q qj (.popped (some u)) → (q, .pop, .popped (some u)) ∈ L := by
    intro q qj u hq
    obtain ⟨o, hm⟩ := hl.complete _ _ _ hq
    obtain ⟨τ, τ', hs⟩ := spec_of hm
    cases o <;> simp [specStep] at hs
    exact hm
  have hmv := hpopv hqv
  have hmw := hpopv hqw
  obtain ⟨tv, bv, hiv⟩ := hpv'
  obtain ⟨o, hpm⟩ := hl.complete _ _ _ hpv
  have ho : o = .push bv v := by
    obtain ⟨t, ht⟩ := hl.invoked _ hpm
    simp only [hiv] at ht
    simp at ht
    exact ht.2.symm
  subst ho
  let U := L.filterMap putBy
  let V := L.filterMap gotBy
  have huniq : ∀ (u : α) (k : Nat), (∀ (k' t : Nat) (b : Bool), h[k']? = some (Event.inv t (.push b u)) → k' = k) →
      ¬ [u, u].Sublist U := by
    intro u k hu hs
    obtain ⟨l, h1, h2⟩ := List.sublist_filterMap_iff.1 hs
    have h3 : ∀ x ∈ l, ∀ y, putBy x = some y → y = u := by
      intro x hx y hy
      have : y ∈ l.filterMap putBy := List.mem_filterMap.2 ⟨x, hx, hy⟩
      rw [← h2] at this
      simpa using this
    have hk : ∀ x ∈ l, (putBy x).isSome → x.1 = k := by
      intro x hx hy
      obtain ⟨y, hy⟩ := Option.isSome_iff_exists.1 hy
      have := h3 x hx y hy
      subst this
      obtain ⟨t, ht⟩ := hl.invoked x (h1.subset hx)
      obtain ⟨a, o, r⟩ := x
      obtain ⟨b, rfl, rfl⟩ := putBy_iff.1 hy
      exact hu _ _ _ ht
    have hnd : (l.map (·.1)).Nodup := hl.nodup.sublist (h1.map _)
    have hlen : (l.filter fun x => (putBy x).isSome).length = 2 := by
      have : ∀ l : List (Nat × Op α × Ret α), (l.filter fun x => (putBy x).isSome).length =
          (l.filterMap putBy).length := by
        intro l
        induction l with
        | nil => rfl
        | cons x l ih => cases hx : putBy x <;> simp [hx, ih]
      rw [this, ← h2]; rfl
    have hnd2 := hnd.sublist ((List.filter_sublist (l := l) (p := fun x => (putBy x).isSome)).map (·.1))
    generalize hl' : l.filter (fun x => (putBy x).isSome) = l' at hlen hnd2
    match l', hlen with
    | [x, y], _ =>
      have hx : x ∈ l ∧ (putBy x).isSome :=
        List.mem_filter.1 (show x ∈ l.filter (fun x => (putBy x).isSome) by rw [hl']; simp)
      have hy : y ∈ l ∧ (putBy y).isSome :=
        List.mem_filter.1 (show y ∈ l.filter (fun x => (putBy x).isSome) by rw [hl']; simp)
      have h5 := hk x hx.1 hx.2
      have h6 := hk y hy.1 hy.2
      simp [h5, h6] at hnd2
  -- the pop of `w` precedes the pop of `v` in `L`
  have hwv : [((p, .pop, .popped (some w)) : Nat × Op α × Ret α), (q, .pop, .popped (some v))].Sublist L := by
    rcases pair_or hmw hmv (by simp [Ne.symm hne]) with h | h
    · exact h
    · exfalso
      have := hl.order.sublist h
      exact (List.pairwise_cons.1 this).1 (p, .pop, .popped (some w)) (by simp) ⟨pj, _, hqw, hcon⟩
  have hVwv : [w, v].Sublist V := by
    have := hwv.filterMap gotBy
    simpa [gotBy, handedBy] using this
  have hUwv : [w, v].Sublist U := hVwv.trans hpre.sublist
  -- `w` was pushed by the call at `i'`
  have hwU : w ∈ U := hUwv.subset (by simp)
  obtain ⟨⟨k, o, r⟩, hx1, hx2⟩ := List.mem_filterMap.1 hwU
  obtain ⟨b, rfl, rfl⟩ := putBy_iff.1 hx2
  have hk : k = i' := by
    obtain ⟨t, ht⟩ := hl.invoked _ hx1
    exact hw _ _ _ ht
  subst hk
  have hvw : [((i, .push bv v, .pushed true) : Nat × Op α × Ret α), (k, .push b w, .pushed true)].Sublist L := by
    rcases pair_or hpm hx1 (by simp; intro; subst i; have := hpv.lt; omega) with h | h
    · exact h
    · exfalso
      have := hl.order.sublist h
      exact (List.pairwise_cons.1 this).1 (i, .push bv v, .pushed true) (by simp) ⟨j, _, hpv, hhb⟩
  have hUvw : [v, w].Sublist U := by
    have := hvw.filterMap putBy
    simpa [putBy, pushedBy] using this
  rcases two_orders hne hUvw hUwv with h | h
  · exact huniq v i hv h
  · exact huniq w k hw h

/-- **C27 (per-producer order).** Let `v` and `w` be different values, each offered by exactly one push call of
the history, and let the push of `v` have returned (with success) before the push of `w` was called — in
particular, let one thread push `v` and then `w`. Then the pop that returns `w` cannot have returned before the
pop that returns `v` was called: in particular if one thread pops both, it pops `v` first. -/
theorem queue_order (hx : FreshExec cfg n h C) {v w : α} (hne : v ≠ w) {i j i' : Nat} {t' b'}
    (hv : ∀ k t b, h[k]? = some (.inv t (.push b v)) → k = i)
    (hw : ∀ k t b, h[k]? = some (.inv t (.push b w)) → k = i')
    (hpv : Returned h i j (.pushed true)) (hpv' : ∃ t b, h[i]? = some (.inv t (.push b v)))
    (hpw : h[i']? = some (.inv t' (.push b' w))) (hlt : j < i')
    {p pj q qj : Nat} (hqv : Returned h q qj (.popped (some v))) (hqw : Returned h p pj (.popped (some w))) :
    ¬ pj < q := by
  obtain ⟨L, hl⟩ := queue_linearizable hx
  exact HbLinearization.queue_order (hl.hb (hb := (· < ·)) fun _ _ h => h) hne hv hw hpv hpv' hpw hlt hlt hqv hqw

theorem SI.holds {s : St α} {g σ} (hi : SI cfg s g σ) : Holds s σ := by
  obtain ⟨x, L', h1, h2, h3⟩ := hi.head_cons
  exact ⟨x, L', h2, h3, by have := hi.data; rwa [h1] at this⟩

theorem Holds.unique {s : St α} {σ σ' : List α} (h1 : Holds s σ) (h2 : Holds s σ') : σ = σ' := by
  obtain ⟨d, S, hh, hc, hd⟩ := h1
  obtain ⟨d', S', hh', hc', hd'⟩ := h2
  rw [hh] at hh'; cases hh'
  rw [hc.unique hc', hd'] at hd
  exact (List.map_injective_iff.2 (fun _ _ h => Option.some.inj h) hd).symm

theorem filterMap_subperm {A B : Type} {l₁ l₂ : List A} (hs : l₁.Subperm l₂) (f : A → Option B) :
    (l₁.filterMap f).Subperm (l₂.filterMap f) := by
  obtain ⟨l, hp, hsub⟩ := hs
  exact ⟨l.filterMap f, hp.filterMap f, hsub.filterMap f⟩

theorem HbLinearization.queue_delivers {fixed : Bool} {hb : Nat → Nat → Prop} {L}
    (hl : HbLinearization (spec α fixed) hb h L) : (delivered h).Subperm (offered h) := by
  obtain ⟨σ, hrun⟩ := hl.legal
  have hpre := run_prefix hrun
  have h2 : (delivered h).Subperm (L.filterMap gotBy) :=
    filterMap_subperm hl.calls_subperm _
  refine h2.trans (hpre.sublist.subperm.trans ?_)
  have h3 := filterMap_subperm hl.subperm_invs (fun x => offeredBy x.2)
  rw [List.filterMap_map] at h3
  refine List.Subperm.trans (List.Sublist.subperm ?_) h3
  clear h2 h3 hpre hrun hl
  induction L with
  | nil => simp
  | cons x L ih =>
    obtain ⟨i, o, r⟩ := x
    have : putBy (i, o, r) = none ∨ putBy (i, o, r) = offeredBy o := by
      cases hy : putBy (i, o, r) with
      | none => simp
      | some y => obtain ⟨b, rfl, rfl⟩ := putBy_iff.1 hy; exact .inr rfl
    rcases this with h | h
    · simp only [List.filterMap_cons, h, Function.comp]
      split
      · exact ih
      · exact ih.cons _
    · simp only [List.filterMap_cons, h, Function.comp]
      split
      · exact ih
      · exact ih.cons_cons _

/-- **C27 (no duplication, no invention).** In every history the values handed out, counted with multiplicity,
are among the values offered to push calls. -/
theorem queue_delivers_only_offered (hx : FreshExec cfg n h C) : (delivered h).Subperm (offered h) := by
  obtain ⟨L, hl⟩ := queue_linearizable hx
  exact HbLinearization.queue_delivers hl.any

/-- **C27 (conservation).** When no call is in progress, the values accepted by pushes are exactly, as a
multiset, the values handed out plus the contents of the queue. -/
theorem queue_conservation (hx : FreshExec cfg n h C) (hq : ∀ t, C.pc t = .idle) :
    ∃ vs, Holds C.s vs ∧ (delivered h ++ vs).Perm (accepted h) := by
  obtain ⟨g, c, hi, hr⟩ := hx.inv
  obtain ⟨L, hl, hrun, hret⟩ := hr.linearization
  refine ⟨c.st, hi.si.holds, ?_⟩
  have hp : L.Perm (calls h) := by
    refine hl.perm_calls fun x hx => ?_
    rcases hret x hx with h1 | ⟨t, h1⟩
    · exact h1
    · have h2 := hi.loc t
      rw [hq t] at h2
      have h3 := h2.2
      rw [h1] at h3
      exact absurd h3 (by simp)
  have h1 := run_fifo hrun
  simp only [spec, List.nil_append] at h1
  refine ((hp.filterMap _).symm.append_right _).trans ?_
  rw [h1]
  exact hp.filterMap _

/-- **C26 (atomicity in memory).** Every step of a thread leaves the contents alone or performs on them one whole
operation, pending in that thread, as the sequential specification says. -/
theorem queue_step_atomic (hx : FreshExec cfg n h C) {t ch s' p' e}
    (hs : tstep cfg t C.s (C.pc t) ch = some (s', p', e)) (hf : fresh cfg C.s (C.pc t)) :
    ∃ σ σ', Holds C.s σ ∧ Holds s' σ' ∧
      (σ' = σ ∨ ∃ i o r, Pending h t i o ∧ specStep cfg.fixed σ o r σ') := by
  obtain ⟨g, c, hi, hr⟩ := hx.inv
  obtain ⟨g', c', hi', hm, _, hst⟩ := hi.step hs hf
  refine ⟨c.st, c'.st, hi.si.holds, hi'.si.holds, ?_⟩
  cases hm with
  | @lin t' o P r σ' hp hsp =>
    obtain ⟨L, hg⟩ := hr.good
    have ht : t' = t := Classical.byContradiction fun hne => by
      have := hst t' hne
      simp [hp] at this
    subst ht
    have h1 := hg.thr t'
    rw [hp] at h1
    obtain ⟨i, h2, _⟩ := h1
    exact .inr ⟨i, o, r, h2, hsp⟩
  | _ => exact .inl rfl

end Verif.Queue
