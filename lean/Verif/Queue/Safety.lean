import Verif.Instant
import Verif.Queue.Props

/-!
# Queue: memory safety, ownership, instants of effect (C28, C40, C30)
-/

namespace Verif.Queue
open Lin

variable {α : Type} {cfg : Cfg} {n : Nat} {h : History (Op α) (Ret α)} {C : Conf α}

/-- The ghost ownership of a thread is what one sees from its local variables. -/
theorem Local.held_iff {s : St α} {F L l st p} (hl : Local cfg s F L l st p) (m : Nat) :
    HeldBy p m ↔ m ∈ l := by
  cases p with
  | pTail k => obtain ⟨b, v, h1, _⟩ := hl; simp [HeldBy, h1]
  | pNext k => obtain ⟨⟨b, v, h1, _⟩, _⟩ := hl; simp [HeldBy, h1]
  | pCheck k => obtain ⟨⟨b, v, h1, _⟩, _⟩ := hl; simp [HeldBy, h1]
  | pCas k => obtain ⟨⟨b, v, h1, _⟩, _⟩ := hl; simp [HeldBy, h1]
  | swing k T y =>
    cases k with
    | retryPush k => obtain ⟨_, b, v, h1, _⟩ := hl; simp [HeldBy, h1]
    | donePush => simp [HeldBy, hl.2.1]
    | retryPop => simp [HeldBy, hl.2.1]
  | err => exact hl.elim
  | _ => simp [HeldBy, hl.1]

section
variable {g : G} {c : CState (spec α cfg.fixed)}

theorem GInv.inQueue (hi : GInv cfg C g c) (m : Nat) : InQueue C.s m ↔ g.own m = .str := by
  rw [InQueue, reach_iff hi.si.chain, hi.si.mem]

theorem GInv.inFree (hi : GInv cfg C g c) (m : Nat) : InFree C.s m ↔ g.own m = .free := by
  rw [InFree, reach_iff hi.si.heap.chain, hi.si.heap.fmem]

theorem GInv.heldBy (hi : GInv cfg C g c) (t m : Nat) : HeldBy (C.pc t) m ↔ g.own m = .thr t := by
  rw [(hi.loc t).held_iff, hi.si.heap.hmem]

end

theorem Local.writes_held {s : St α} {F L l st p} (hl : Local cfg s F L l st p) {m : Nat} (hm : m ∈ writes p) :
    m ∈ l := by
  cases p with
  | free k j d => cases d <;> simp [writes] at hm; simp [hl.1, hm]
  | _ => first
    | (simp [writes] at hm; done)
    | (simp [writes] at hm; simp [hl.1, hm])

theorem Local.derefs_lt {s : St α} {F L l st p} (hl : Local cfg s F L l st p)
    (hlt : ∀ m ∈ l, m < s.heap.nalloc) {m : Nat} (hm : m ∈ derefs p) :
    m < s.heap.nalloc := by
  cases p with
  | alloc b v a =>
    cases a <;> simp [derefs] at hm
    exact (hl.2.2.2.2 m hm).1
  | free k j d => cases d <;> simp [derefs] at hm; exact hlt m (by simp [hl.1, hm])
  | pNext j T =>
    simp [derefs] at hm
    obtain ⟨_, x, hx⟩ := hl
    have := hx.2.2.1; rw [hm] at this; cases this
    exact hx.2.2.2.1
  | pCas j T N =>
    simp [derefs] at hm
    obtain ⟨_, x, hx, _⟩ := hl
    have := hx.2.2.1; rw [hm] at this; cases this
    exact hx.2.2.2.1
  | cNext H T =>
    simp [derefs] at hm
    obtain ⟨_, _, x, z, hx, _⟩ := hl
    have := hx.2.2.1; rw [hm] at this; cases this
    exact hx.2.2.2.1
  | cData H y => simp [derefs] at hm; subst hm; exact hl.2.2.1
  | _ => first
    | (simp [derefs] at hm; done)
    | (simp [derefs] at hm; exact hlt m (by simp [hl.1, hm]))

/-! ### C28: memory safety -/

/-- **C28.** No thread ever gets to undefined behaviour: no null handle is dereferenced, no element constructed
over a live one, and a pop never reads, from a node that is still the front, an element that is not alive. -/
theorem queue_no_undefined_behaviour (hx : FreshExec cfg n h C) (t : Nat) : C.pc t ≠ .err := by
  obtain ⟨g, c, hi, _⟩ := hx.inv
  intro he
  have := hi.loc t
  rw [he] at this
  exact this

/-- **C28.** Only nodes obtained from the allocator are dereferenced. -/
theorem queue_derefs_allocated (hx : FreshExec cfg n h C) {t m : Nat} (hm : m ∈ derefs (C.pc t)) :
    m < C.s.heap.nalloc := by
  obtain ⟨g, c, hi, _⟩ := hx.inv
  refine (hi.loc t).derefs_lt (fun m hm => hi.si.heap.lt ?_) hm
  rw [(hi.si.heap.hmem t m).2 hm]; simp

/-- **C28.** A node is never in the queue and in the freelist at once; a node held by an operation in progress is
neither in the queue nor in the freelist nor held by another thread. -/
theorem queue_ownership_exclusive (hx : FreshExec cfg n h C) (m : Nat) :
    ¬ (InQueue C.s m ∧ InFree C.s m) ∧
    ∀ t, HeldBy (C.pc t) m →
      ¬ InQueue C.s m ∧ ¬ InFree C.s m ∧ ∀ t', t' ≠ t → ¬ HeldBy (C.pc t') m := by
  obtain ⟨g, c, hi, _⟩ := hx.inv
  simp only [hi.inQueue, hi.inFree, hi.heldBy]
  grind

/-- **C28.** A step that constructs or destroys an element or stores to a link word does so to a node the thread
holds. -/
theorem queue_writes_exclusive (hx : FreshExec cfg n h C) {t m : Nat} (hm : m ∈ writes (C.pc t)) :
    HeldBy (C.pc t) m := by
  obtain ⟨g, c, hi, _⟩ := hx.inv
  exact ((hi.loc t).held_iff m).2 ((hi.loc t).writes_held hm)

/-- **C28.** Nodes in the freelist hold no live element. -/
theorem queue_free_nodes_dead (hx : FreshExec cfg n h C) {m : Nat} (hm : InFree C.s m) :
    C.s.heap.data m = none := by
  obtain ⟨g, c, hi, _⟩ := hx.inv
  exact hi.si.heap.fdata m (.inl ((hi.inFree m).1 hm))

/-- **C28 (head never overtakes tail).** `tail_` always points to a node reachable from `head_`, and to the last
or the last but one. -/
theorem queue_tail_reachable (hx : FreshExec cfg n h C) :
    ∃ x, C.s.tail.ptr = some x ∧ InQueue C.s x ∧
      ((C.s.heap.next x).ptr = none ∨ ∃ y, (C.s.heap.next x).ptr = some y ∧ (C.s.heap.next y).ptr = none) := by
  obtain ⟨g, c, hi, _⟩ := hx.inv
  obtain ⟨A, x, h1, h2⟩ := hi.si.tl
  refine ⟨x, h1, (reach_iff hi.si.chain).2 (hi.si.tail_mem h1), ?_⟩
  rcases h2 with h2 | ⟨y, h2⟩
  · left
    exact Chain.last_null hi.si.chain (by rw [h2]; simp)
  · right
    refine ⟨y, ?_, Chain.last_null hi.si.chain (by rw [h2]; simp)⟩
    exact Chain.next_mem (B := []) (by rw [← h2]; exact hi.si.chain)

/-! ### Instants -/

theorem queue_sim (cfg : Cfg) : (mach α cfg).SimBy (okFresh cfg) (spec α cfg.fixed) fun C c => ∃ g, GInv cfg C g c := by
  rintro C c t ch s' p' e ⟨g, hi⟩ hs hok
  obtain ⟨g', c', hi', hm, _⟩ := hi.step hs hok
  exact ⟨c', ⟨g', hi'⟩, hm⟩

/-- **C26, C40 (instant of effect).** Every completed call took effect at an instant between its call and its
return: between configurations `C₁` and `C₂`, equal or one step apart, the contents of the queue in memory change
as the sequential specification says for the call and its result. -/
theorem queue_effect_instant (hx : FreshExec cfg n h C) {i j r} (hr : Returned h i j r) :
    ∃ t o k C₁ C₂ σ σ', h[i]? = some (.inv t o) ∧ i < k ∧ k ≤ j ∧ FreshExec cfg n (h.take k) C₁ ∧
      (mach α cfg).AtMostOne (okFresh cfg) C₁ C₂ ∧ MSteps (mach α cfg) (okFresh cfg) C₂ (h.drop k) C ∧
      Holds C₁.s σ ∧ Holds C₂.s σ' ∧ specStep cfg.fixed σ o r σ' := by
  obtain ⟨t, o, k, h1, h2, h3, C₁, c₁, C₂, c₂, h4, ⟨g₁, h5⟩, h6, ⟨g₂, h7⟩, h8, h9⟩ :=
    MSteps.instant (queue_sim cfg) ⟨_, GInv.initial cfg n⟩ hx hr
  exact ⟨t, o, k, C₁, C₂, c₁.st, c₂.st, h1, h2, h3, h4, h6, h8, h5.si.holds, h7.si.holds, h9⟩

/-- **C40.** If pop returns false, the queue was empty at an instant between the call and its return. -/
theorem queue_pop_false_was_empty (hx : FreshExec cfg n h C) {i j} (hr : Returned h i j (.popped none)) :
    ∃ k C₁, i < k ∧ k ≤ j ∧ FreshExec cfg n (h.take k) C₁ ∧
      MSteps (mach α cfg) (okFresh cfg) C₁ (h.drop k) C ∧ Holds C₁.s [] := by
  obtain ⟨t, o, k, C₁, C₂, σ, σ', h1, h2, h3, h4, h5, h6, h7, h8, h9⟩ := queue_effect_instant hx hr
  refine ⟨k, C₁, h2, h3, h4, ?_, ?_⟩
  · rcases h5 with rfl | ⟨t, ch, s', p', hs, hok, rfl⟩
    · exact h6
    · have := (MSteps.refl (m := mach α cfg) (ok := okFresh cfg) C₁).step hs hok
      simpa using this.trans h6
  · cases o <;> simp [specStep] at h9
    rw [h9.1] at h7; exact h7

/-- **C28.** A pop returns exactly the element that was at the front of the queue at an instant between its call
and its return, and removes it — never data of a recycled node. -/
theorem queue_pop_was_front (hx : FreshExec cfg n h C) {i j v} (hr : Returned h i j (.popped (some v))) :
    ∃ k C₁ C₂ vs, i < k ∧ k ≤ j ∧ FreshExec cfg n (h.take k) C₁ ∧
      (mach α cfg).AtMostOne (okFresh cfg) C₁ C₂ ∧ MSteps (mach α cfg) (okFresh cfg) C₂ (h.drop k) C ∧
      Holds C₁.s (v :: vs) ∧ Holds C₂.s vs := by
  obtain ⟨t, o, k, C₁, C₂, σ, σ', h1, h2, h3, h4, h5, h6, h7, h8, h9⟩ := queue_effect_instant hx hr
  cases o <;> simp [specStep] at h9
  rw [h9] at h7
  exact ⟨k, C₁, C₂, σ', h2, h3, h4, h5, h6, h7, h8⟩

/-! ### C30: `empty()` -/

/-- **C30.** When no operation is in progress the test of `empty()` (queue.hpp:303: `head_` and `tail_` point to
the same node) is true iff the queue holds no element. -/
theorem queue_empty_test_exact (hx : FreshExec cfg n h C) (hq : ∀ t, C.pc t = .idle) :
    C.s.head.ptr = C.s.tail.ptr ↔ Holds C.s [] := by
  obtain ⟨g, c, hi, _⟩ := hx.inv
  have hlag := hx.lagOk
  obtain ⟨A, x, h1, h2⟩ := hi.si.tl
  obtain ⟨d, L', h3, h4, h5⟩ := hi.si.head_cons
  have h6 : g.L = A ++ [x] := by
    rcases h2 with h2 | ⟨y, h2⟩
    · exact h2
    · exfalso
      have hc := Chain.next_mem (B := []) (by rw [← h2]; exact hi.si.chain)
      obtain ⟨t, T, y', h7, _⟩ := hlag x h1 (by rw [hc]; simp)
      rw [hq t] at h7; simp at h7
  have hnd := hi.si.nodup
  constructor
  · intro he
    rw [h4, h1] at he
    cases he
    have : L' = [] := by
      cases A with
      | nil => rw [h3] at h6; simpa using h6
      | cons a A =>
        rw [h3] at h6; simp at h6
        rw [h3, List.nodup_cons] at hnd
        exact absurd (by rw [h6.2]; simp) hnd.1
    subst this
    exact ⟨_, [], h4, h5, rfl⟩
  · rintro ⟨d', S, h7, h8, h9⟩
    rw [h4] at h7; cases h7
    have hS : S = [] := by simpa using h9
    have := h8.unique h5
    subst this; subst hS
    rw [h3] at h6
    cases A with
    | nil => simp at h6; rw [h4, h1, h6]
    | cons a A => simp at h6

/-- **C30.** From any configuration in which no operation is in progress, a call of `empty()` that runs alone
changes nothing and returns true iff the queue holds no element. -/
theorem queue_empty_exact (hx : FreshExec cfg n h C) (hq : ∀ t, C.pc t = .idle) {t : Nat} {b : Bool} {C' : Conf α}
    (hs : MSteps (mach α cfg) (okFresh cfg) C [.inv t .empty, .res t (.isEmpty b)] C') :
    C'.s = C.s ∧ (b = true ↔ Holds C.s []) := by
  have key : ∀ h' C', MSteps (mach α cfg) (okFresh cfg) C h' C' →
      h' <+: [.inv t .empty, .res t (.isEmpty b)] →
      C'.s = C.s ∧ (∀ t', t' ≠ t → C'.pc t' = .idle) ∧
      ((h' = [] ∧ C'.pc t = .idle) ∨
       (h' = [.inv t .empty] ∧ (C'.pc t = .eHead ∨ C'.pc t = .eTail C.s.headSnap ∨
         C'.pc t = .eHead2 C.s.tailSnap ∨
         C'.pc t = .ret (.isEmpty (C.s.head.ptr == C.s.tail.ptr)))) ∨
       (h' = [.inv t .empty, .res t (.isEmpty (C.s.head.ptr == C.s.tail.ptr))] ∧ C'.pc t = .idle)) := by
    intro h' C' hs
    induction hs with
    | refl => intro _; exact ⟨rfl, fun t' _ => hq t', .inl ⟨rfl, hq t⟩⟩
    | @step h' C' t₁ ch s' p' e _ hstep _ ih =>
      intro hp
      obtain ⟨h1, h2, h3⟩ := ih ((List.prefix_append _ _).trans hp)
      have hst := trans_of_tstep (show tstep cfg t₁ C'.s (C'.pc t₁) ch = _ from hstep)
      have ht : t₁ = t := Classical.byContradiction fun hne => by
        rw [h2 t₁ hne] at hst
        cases hst with
        | call h =>
          obtain ⟨l, hl⟩ := hp
          rcases h3 with ⟨rfl, _⟩ | ⟨rfl, _⟩ | ⟨rfl, _⟩ <;> simp at hl
          exact hne hl.1.1
      subst ht
      have ho : ∀ t', t' ≠ t₁ → upd C'.pc t₁ p' t' = .idle := fun t' h => by rw [upd_ne _ _ _ h]; exact h2 t' h
      rcases h3 with ⟨rfl, h3⟩ | ⟨rfl, h3 | h3 | h3 | h3⟩ | ⟨rfl, h3⟩
      · rw [h3] at hst
        cases hst with
        | @call o p h =>
          obtain ⟨l, hl⟩ := hp
          simp at hl
          obtain ⟨rfl, _⟩ := hl
          simp [start] at h
          subst h
          exact ⟨h1, ho, .inr (.inl ⟨by simp, .inl (by simp)⟩)⟩
      · rw [h3] at hst
        cases hst with
        | eHead => exact ⟨h1, ho, .inr (.inl ⟨by simp, .inr (.inl (by simp [h1]))⟩)⟩
        | eHead' => exact ⟨h1, ho, .inr (.inl ⟨by simp, .inr (.inr (.inl (by simp [h1])))⟩)⟩
      · rw [h3] at hst
        cases hst with
        | eTail => exact ⟨h1, ho, .inr (.inl ⟨by simp, .inr (.inr (.inr (by simp [h1, St.headSnap])))⟩)⟩
      · rw [h3] at hst
        cases hst with
        | eHead2 => exact ⟨h1, ho, .inr (.inl ⟨by simp, .inr (.inr (.inr (by simp [h1, St.tailSnap])))⟩)⟩
      · rw [h3] at hst
        cases hst with
        | ret => exact ⟨h1, ho, .inr (.inr ⟨by simp, by simp⟩)⟩
      · rw [h3] at hst
        cases hst with
        | call h => have := hp.length_le; simp at this
  obtain ⟨h1, _, h3⟩ := key _ _ hs (List.prefix_refl _)
  refine ⟨h1, ?_⟩
  rw [← queue_empty_test_exact hx hq]
  rcases h3 with ⟨h3, _⟩ | ⟨h3, _⟩ | ⟨h3, _⟩
  · simp at h3
  · simp at h3
  · simp at h3; simp [h3]

end Verif.Queue
