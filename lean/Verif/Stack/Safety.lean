import Verif.Instant
import Verif.Stack.Props

/-!
# Stack: memory safety, ownership, truthful failure (C18, C19, C20, C23, C25, C39, C40)
-/

namespace Verif.Stack
open Lin

variable {α : Type} {cfg : Cfg} {n : Nat} {h : History (Op α) (Ret α)} {C : Conf α}

theorem Seg.unique_last {next : Nat → Tagged} {p l l' q q' e} (h1 : Seg next p l q) (h2 : Seg next p l' q')
    (hn : l.Nodup) (hn' : l'.Nodup) (he : l.getLast? = some e) (he' : l'.getLast? = some e) : l = l' := by
  induction l generalizing p l' with
  | nil => simp at he
  | cons a l ih =>
    cases l' with
    | nil => simp at he'
    | cons b l' =>
      obtain ⟨rfl, h1⟩ := h1
      obtain ⟨hab, h2⟩ := h2
      cases hab
      rw [List.nodup_cons] at hn hn'
      cases l with
      | nil =>
        simp at he; subst he
        cases l' with
        | nil => rfl
        | cons c l' =>
          rw [List.getLast?_cons_cons] at he'
          exact absurd (List.mem_of_getLast? he') hn'.1
      | cons d l =>
        rw [List.getLast?_cons_cons] at he
        cases l' with
        | nil =>
          simp at he'; subst he'
          exact absurd (List.mem_of_getLast? he) hn.1
        | cons c l' =>
          rw [List.getLast?_cons_cons] at he'
          rw [ih h1 h2 hn.2 hn'.2 he he']

theorem onPath_iff {h : Heap α} {top e m : Nat} {l q} (h1 : Seg h.next (some top) l q) (hn : l.Nodup)
    (he : l.getLast? = some e) : OnPath h top e m ↔ m ∈ l := by
  constructor
  · rintro ⟨l', q', h2, hn', he', hm⟩
    rw [Seg.unique_last h1 h2 hn hn' he he']; exact hm
  · exact fun hm => ⟨l, q, h1, hn, he, hm⟩

/-- The ghost ownership of a thread is what one sees from its local variables. -/
theorem Local.held_iff {s : St α} {F S l st p} (hl : Local cfg s F S l st p) (hn : l.Nodup) (m : Nat) :
    HeldBy s.heap p m ↔ m ∈ l := by
  cases p with
  | alloc b k a =>
    cases k with
    | one v => simp [HeldBy, hl.1]
    | range acc te v rest =>
      cases te with
      | none => simp [HeldBy, hl.1.1]
      | some te => obtain ⟨top, e⟩ := te; simp only [HeldBy]; exact reach_iff hl.1.1
  | constr b k n =>
    cases k with
    | one v => simp [HeldBy, hl.1]
    | range acc te v rest =>
      obtain ⟨l', rfl, h2, _⟩ := hl
      cases te with
      | none => simp [HeldBy, h2.1]
      | some te => obtain ⟨top, e⟩ := te; simp [HeldBy, reach_iff h2.1]
  | rlink b acc te v rest n =>
    obtain ⟨l', rfl, h2, _⟩ := hl
    cases te with
    | none => simp [HeldBy, h2.1]
    | some te => obtain ⟨top, e⟩ := te; simp [HeldBy, reach_iff h2.1]
  | lload top e r => obtain ⟨q, o, vs, h1, h2, _⟩ := hl; exact onPath_iff h1 hn h2
  | lset top e o r => obtain ⟨q, o, vs, h1, h2, _⟩ := hl; exact onPath_iff h1 hn h2
  | lcas top e o r => obtain ⟨o, vs, h1, h2, _⟩ := hl; exact onPath_iff h1 hn h2
  | papply thr n => simp [HeldBy, hl.1]
  | pdestroy n v => simp [HeldBy, hl.1]
  | free k n d =>
    obtain ⟨l', rfl, _, _, h4⟩ := hl
    cases k with
    | pop v => simp [HeldBy, h4.1]
    | cons thr acc nx => simp [HeldBy, reach_iff h4.1]
    | rsv k => simp [HeldBy, h4.1]
    | undo nx => simp [HeldBy, reach_iff h4.1]
  | crev thr n last =>
    obtain ⟨A, B, vals, rfl, h1, h2, _⟩ := hl
    simp only [HeldBy, reach_iff h1, reach_iff h2]; simp; tauto
  | crevSet thr n last nx =>
    obtain ⟨A, B, vals, rfl, h1, h2, _⟩ := hl
    simp only [HeldBy, reach_iff h1, reach_iff h2]; simp; tauto
  | capply thr n acc => exact reach_iff hl.1
  | cread thr n acc => obtain ⟨l', h0, h1, _⟩ := hl; exact reach_iff h1
  | cdestroy thr n acc nx => obtain ⟨l', rfl, h1, _⟩ := hl; simp [HeldBy, reach_iff h1]
  | undo n => exact reach_iff hl.1
  | undoD n nx => obtain ⟨l', rfl, h1, _⟩ := hl; simp [HeldBy, reach_iff h1]
  | rsv k => simp [HeldBy, hl.1]
  | err => exact hl.elim
  | _ => simp [HeldBy, hl.1]

section
variable {g : G} {c : CState (spec α cfg.fixed)}

theorem GInv.inStack (hi : GInv cfg C g c) (m : Nat) : InStack C.s m ↔ g.own m = .str := by
  rw [InStack, reach_iff hi.si.chain, hi.si.mem]

theorem GInv.inFree (hi : GInv cfg C g c) (m : Nat) : InFree C.s m ↔ g.own m = .free := by
  rw [InFree, reach_iff hi.si.heap.chain, hi.si.heap.fmem]

theorem GInv.heldBy (hi : GInv cfg C g c) (t m : Nat) : HeldBy C.s.heap (C.pc t) m ↔ g.own m = .thr t := by
  rw [(hi.loc t).held_iff (hi.si.heap.hnodup t), hi.si.heap.hmem]

/-- Nodes used by a step are held. -/
theorem Local.uses_held {s : St α} {F S l st p} (hl : Local cfg s F S l st p) {m : Nat} (hm : m ∈ uses p) :
    m ∈ l := by
  cases p with
  | constr b k n =>
    simp [uses] at hm; subst hm
    cases k with
    | one v => simp [hl.1]
    | range acc te v rest => obtain ⟨l', rfl, _⟩ := hl; simp
  | rlink b acc te v rest n => simp [uses] at hm; subst hm; obtain ⟨l', rfl, _⟩ := hl; simp
  | lset top e o r =>
    simp [uses] at hm; subst hm
    obtain ⟨q, o, vs, h1, h2, _⟩ := hl; exact List.mem_of_getLast? h2
  | papply thr n => simp [uses] at hm; subst hm; simp [hl.1]
  | pdestroy n v => simp [uses] at hm; subst hm; simp [hl.1]
  | free k n d =>
    cases d <;> simp [uses] at hm
    subst hm; obtain ⟨l', rfl, _⟩ := hl; simp
  | crevSet thr n last nx => simp [uses] at hm; subst hm; obtain ⟨A, B, vals, rfl, _⟩ := hl; simp
  | capply thr n acc => simp [uses] at hm; subst hm; exact hl.1.mem_some rfl
  | cdestroy thr n acc nx => simp [uses] at hm; subst hm; obtain ⟨l', rfl, _⟩ := hl; simp
  | undoD n nx => simp [uses] at hm; subst hm; obtain ⟨l', rfl, _⟩ := hl; simp
  | _ => simp [uses] at hm

/-- Nodes dereferenced by a step are allocated. -/
theorem Local.derefs_lt {s : St α} {F S l st p} (hl : Local cfg s F S l st p)
    (hlt : ∀ m ∈ l, m < s.heap.nalloc) {m : Nat} (hm : m ∈ derefs p) : m < s.heap.nalloc := by
  by_cases hu : m ∈ uses p
  · exact hlt m (hl.uses_held hu)
  cases p with
  | alloc b k a =>
    cases a with
    | test o =>
      simp [derefs] at hm
      have hal : ALocal cfg s.heap F (.test o) := by
        cases k
        · exact hl.2.2
        · exact hl.2.2.1
      exact (hal.2.2 m hm).1
    | _ => simp [derefs] at hm
  | ptest thr o => simp [derefs] at hm; exact (hl.2.2.2.2.2 m hm).1
  | free k n d => cases d <;> simp [derefs, uses] at hm hu; exact absurd hm hu
  | crev thr n last =>
    simp [derefs] at hm; subst hm
    obtain ⟨A, B, vals, rfl, _⟩ := hl; exact hlt _ (by simp)
  | cread thr n acc => simp [derefs] at hm; subst hm; obtain ⟨l', rfl, _⟩ := hl; exact hlt _ (by simp)
  | undo n => simp [derefs] at hm; subst hm; exact hlt _ (hl.1.mem_some rfl)
  | _ => first
    | (simp [derefs] at hm; done)
    | (simp [derefs, uses] at hm hu; exact absurd hm hu)

end

/-! ### C18: memory safety -/

/-- **C18.** No thread ever gets to undefined behaviour: no element is read or destroyed while not alive, nor
constructed over a live element. -/
theorem stack_no_undefined_behaviour (hx : FreshExec cfg n h C) (t : Nat) : C.pc t ≠ .err := by
  obtain ⟨g, c, hi, _⟩ := hx.inv
  intro he
  have := hi.loc t
  rw [he] at this
  exact this

/-- **C18.** Only nodes obtained from the allocator are dereferenced. -/
theorem stack_derefs_allocated (hx : FreshExec cfg n h C) {t m : Nat} (hm : m ∈ derefs (C.pc t)) :
    m < C.s.heap.nalloc := by
  obtain ⟨g, c, hi, _⟩ := hx.inv
  refine (hi.loc t).derefs_lt (fun m hm => hi.si.heap.lt ?_) hm
  rw [(hi.si.heap.hmem t m).2 hm]; simp

/-- **C18.** A node is never in the stack and in the freelist at once; a node held by an operation in progress
is neither in the stack nor in the freelist nor held by another thread. -/
theorem stack_ownership_exclusive (hx : FreshExec cfg n h C) (m : Nat) :
    ¬ (InStack C.s m ∧ InFree C.s m) ∧
    ∀ t, HeldBy C.s.heap (C.pc t) m →
      ¬ InStack C.s m ∧ ¬ InFree C.s m ∧ ∀ t', t' ≠ t → ¬ HeldBy C.s.heap (C.pc t') m := by
  obtain ⟨g, c, hi, _⟩ := hx.inv
  simp only [hi.inStack, hi.inFree, hi.heldBy]
  grind

/-- **C18.** A step that writes a node, or reads or destroys its element, only does so to a node the thread
holds. -/
theorem stack_uses_exclusive (hx : FreshExec cfg n h C) {t m : Nat} (hm : m ∈ uses (C.pc t)) :
    HeldBy C.s.heap (C.pc t) m := by
  obtain ⟨g, c, hi, _⟩ := hx.inv
  exact ((hi.loc t).held_iff (hi.si.heap.hnodup t) m).2 ((hi.loc t).uses_held hm)

/-- **C18.** Exactly the elements of nodes in the stack or in the hands of an operation (or dropped by a
throwing one) are alive; nodes in the freelist hold none. -/
theorem stack_free_nodes_dead (hx : FreshExec cfg n h C) {m : Nat} (hm : InFree C.s m) :
    C.s.heap.data m = none := by
  obtain ⟨g, c, hi, _⟩ := hx.inv
  exact hi.si.heap.fdata m (.inl ((hi.inFree m).1 hm))

/-! ### C25: empty ranges -/

/-- **C25.** Pushing an empty range is undefined behaviour in every state of every node-based stack, before any
test of `begin == end`. -/
theorem empty_range_push_undefined (hf : cfg.fixed = false) (b : Bool) (t : Nat) (s : St α) :
    tstep cfg t s .idle (.call (.pushRange b [])) = some (s, .err, some (.inv t (.pushRange b []))) := by
  simp [tstep, start, hf]

/-- **C25.** Conversely it is the only call with undefined behaviour (absent a complete tag wrap): an execution
reaching `err` with fresh steps contains a call with an empty range. -/
theorem undefined_only_by_empty_range (hM : cfg.M = 0) (hx : Exec cfg n h C) {t : Nat} (he : C.pc t = .err) :
    ∃ t b, Event.inv t (.pushRange b []) ∈ h := by
  refine Classical.byContradiction fun hno => ?_
  exact stack_no_undefined_behaviour (hx.fresh (.inl hM) fun t b hm => hno ⟨t, b, hm⟩) t he

theorem start_ne {o : Op α} {p} (hp : start cfg o = some p) :
    p ≠ .idle ∧ (∀ r, p ≠ .ret r) ∧ (∀ thr o, p ≠ .ptest thr o) ∧ ∀ b k o, p ≠ .alloc b k (.test o) := by
  unfold start at hp
  split at hp <;> (repeat' split at hp) <;> simp at hp <;> subst hp <;> simp

theorem tstep_to_ptest {t : Nat} {s s' : St α} {p ch thr o e}
    (hs : tstep cfg t s p ch = some (s', .ptest thr o, e)) : p ≠ .idle ∧ s' = s ∧ o = s.tosSnap := by
  have ht := trans_of_tstep hs
  generalize hp' : PC.ptest thr o = p' at ht
  cases ht with
  | call h => exact absurd hp'.symm ((start_ne h).2.2.1 _ _)
  | @allocNull b k a ch h h1 => rcases k with _ | ⟨_, _ | _, _, _⟩ <;> simp [onNull] at hp'
  | @allocBad b k a ch h h1 => rcases k with _ | ⟨_, _ | _, _, _⟩ <;> simp [onThrow] at hp'
  | @constrThrow b k n => rcases k with _ | ⟨_, _ | _, _, _⟩ <;> simp [onThrow] at hp'
  | @rlinkFirst b acc v rest n => cases rest <;> simp [onLinked] at hp'
  | @rlinkNext b acc top e v rest n => cases rest <;> simp [onLinked] at hp'
  | @freeDone k n d ch h h1 => rcases k with _ | ⟨_, _, _ | _⟩ | _ | (_ | _) <;> simp [onFreed] at hp'
  | @ccasOk rev thr o n h1 h2 => cases rev <;> simp at hp'
  | pload => cases hp'; simp
  | pcasFail => cases hp'; simp
  | _ => simp at hp'

/-- Where `ret (popped none)` comes from. -/
theorem tstep_to_popped_none {g : G} {c : CState (spec α cfg.fixed)} (hi : GInv cfg C g c) {t : Nat}
    {s' : St α} {ch e} (hs : tstep cfg t C.s (C.pc t) ch = some (s', .ret (.popped none), e)) :
    ∃ thr o, C.pc t = .ptest thr o ∧ o.v.ptr = none := by
  have hl := hi.loc t
  generalize C.pc t = p at hs hl
  have ht := trans_of_tstep hs
  generalize hp' : PC.ret (.popped none) = p' at ht
  cases ht with
  | call h => exact absurd hp'.symm ((start_ne h).2.1 _)
  | @allocNull b k a ch h h1 => rcases k with _ | ⟨_, _ | _, _, _⟩ <;> simp [onNull] at hp'
  | @allocBad b k a ch h h1 => rcases k with _ | ⟨_, _ | _, _, _⟩ <;> simp [onThrow] at hp'
  | @constrThrow b k n => rcases k with _ | ⟨_, _ | _, _, _⟩ <;> simp [onThrow] at hp'
  | @rlinkFirst b acc v rest n => cases rest <;> simp [onLinked] at hp'
  | @rlinkNext b acc top e v rest n => cases rest <;> simp [onLinked] at hp'
  | @freeDone k n d ch h h1 => rcases k with _ | ⟨_, _, _ | _⟩ | _ | (_ | _) <;> simp [onFreed] at hp'
  | @ccasOk rev thr o n h1 h2 => cases rev <;> simp at hp'
  | lcasOk =>
    cases hp'
    obtain ⟨o, vs, h1, h2, h3, h4, h5⟩ := hl
    have hne : vs ≠ [] := by rintro rfl; simp at h3; simp [h3] at h2
    have := h5 []
    cases o <;> simp [specStep] at this
    exact absurd this hne
  | ptestNull h => exact ⟨_, _, rfl, h⟩
  | _ => simp at hp'

/-! ### Instants -/

theorem stack_sim (cfg : Cfg) : (mach α cfg).SimBy (okFresh cfg) (spec α cfg.fixed) fun C c => ∃ g, GInv cfg C g c := by
  rintro C c t ch s' p' e ⟨g, hi⟩ hs hok
  obtain ⟨g', c', hi', hm, _⟩ := hi.step hs hok.1 hok.2
  exact ⟨c', ⟨g', hi'⟩, hm⟩

/-- **C14, C40 (instant of effect).** Every completed call took effect at an instant between its call and its
return: between configurations `C₁` and `C₂`, equal or one step apart, the contents of the stack in memory change
as the sequential specification says for the call and its result. -/
theorem stack_effect_instant (hx : FreshExec cfg n h C) {i j r} (hr : Returned h i j r) :
    ∃ t o k C₁ C₂ σ σ', h[i]? = some (.inv t o) ∧ i < k ∧ k ≤ j ∧ FreshExec cfg n (h.take k) C₁ ∧
      (mach α cfg).AtMostOne (okFresh cfg) C₁ C₂ ∧ MSteps (mach α cfg) (okFresh cfg) C₂ (h.drop k) C ∧
      Holds C₁.s σ ∧ Holds C₂.s σ' ∧ specStep cfg.fixed σ o r σ' := by
  obtain ⟨t, o, k, h1, h2, h3, C₁, c₁, C₂, c₂, h4, ⟨g₁, h5⟩, h6, ⟨g₂, h7⟩, h8, h9⟩ :=
    MSteps.instant (stack_sim cfg) ⟨_, GInv.initial cfg n⟩ hx hr
  exact ⟨t, o, k, C₁, C₂, c₁.st, c₂.st, h1, h2, h3, h4, h6, h8, h5.si.holds, h7.si.holds, h9⟩

theorem atMostOne_steps {C₁ C₂ : Conf α} {h'} (h5 : (mach α cfg).AtMostOne (okFresh cfg) C₁ C₂)
    (h6 : MSteps (mach α cfg) (okFresh cfg) C₂ h' C) : MSteps (mach α cfg) (okFresh cfg) C₁ h' C := by
  rcases h5 with rfl | ⟨t, ch, s', p', hs, hok, rfl⟩
  · exact h6
  · have := (MSteps.refl (m := mach α cfg) (ok := okFresh cfg) C₁).step hs hok
    simpa using this.trans h6

/-! ### C40: a failing pop saw an empty stack -/

/-- **C40 (stack).** If a pop (or `consume_one`) returned false, there was a moment between its call and its
return at which the stack was empty. -/
theorem pop_false_was_empty (hx : FreshExec cfg n h C) {i j} (hr : Returned h i j (.popped none)) :
    ∃ k C₁, i < k ∧ k ≤ j ∧ FreshExec cfg n (h.take k) C₁ ∧
      MSteps (mach α cfg) (okFresh cfg) C₁ (h.drop k) C ∧ Holds C₁.s [] := by
  obtain ⟨t, o, k, C₁, C₂, σ, σ', h1, h2, h3, h4, h5, h6, h7, h8, h9⟩ := stack_effect_instant hx hr
  refine ⟨k, C₁, h2, h3, h4, atMostOne_steps h5 h6, ?_⟩
  cases o <;> simp [specStep] at h9
  rw [h9.1] at h7; exact h7

/-! ### A call that runs alone -/

theorem Local.idle_iff {s : St α} {F S l st p} (hl : Local cfg s F S l st p) : p = .idle ↔ st = .idle := by
  cases p with
  | idle => simp [hl.2]
  | alloc b k a =>
    cases k with
    | one => obtain ⟨_, ⟨P, h1⟩, _⟩ := hl; simp [h1]
    | range => obtain ⟨_, ⟨P, h1⟩, _⟩ := hl; simp [h1]
  | constr b k m =>
    cases k with
    | one => obtain ⟨_, ⟨P, h1⟩, _⟩ := hl; simp [h1]
    | range => obtain ⟨_, _, _, ⟨P, h1⟩, _⟩ := hl; simp [h1]
  | rlink => obtain ⟨_, _, _, ⟨P, h1⟩, _⟩ := hl; simp [h1]
  | lload => obtain ⟨_, _, _, _, _, _, ⟨P, h1⟩, _⟩ := hl; simp [h1]
  | lset => obtain ⟨_, _, _, _, _, _, ⟨P, h1⟩, _⟩ := hl; simp [h1]
  | lcas => obtain ⟨_, _, _, _, _, ⟨P, h1⟩, _⟩ := hl; simp [h1]
  | pload => obtain ⟨_, ⟨P, h1⟩⟩ := hl; simp [h1]
  | ptest thr o =>
    obtain ⟨_, h1, h2, _⟩ := hl
    by_cases ho : o.v.ptr = none
    · obtain ⟨P, h1⟩ := h1 ho; simp [h1]
    · obtain ⟨P, h2⟩ := h2 ho; simp [h2]
  | pcas => obtain ⟨_, ⟨P, h1⟩, _⟩ := hl; simp [h1]
  | papply => obtain ⟨_, _, _, ⟨P, h1⟩⟩ := hl; simp [h1]
  | pdestroy => obtain ⟨_, _, ⟨P, h1⟩⟩ := hl; simp [h1]
  | free k m d =>
    obtain ⟨_, _, _, _, hl⟩ := hl
    cases k with
    | pop => obtain ⟨_, ⟨P, h1⟩⟩ := hl; simp [h1]
    | cons => obtain ⟨_, ⟨_, _, ⟨P, h1⟩⟩, _⟩ := hl; simp [h1]
    | rsv => obtain ⟨_, _, ⟨P, h1⟩⟩ := hl; simp [h1]
    | undo => obtain ⟨_, _, ⟨P, h1⟩⟩ := hl; simp [h1]
  | cload => obtain ⟨_, ⟨P, h1⟩⟩ := hl; simp [h1]
  | ctest rev thr o =>
    obtain ⟨_, h1, h2, _⟩ := hl
    by_cases ho : o.v.ptr = none
    · obtain ⟨P, h1⟩ := h1 ho; simp [h1]
    · obtain ⟨P, h2⟩ := h2 ho; simp [h2]
  | ccas => obtain ⟨_, ⟨P, h1⟩, _⟩ := hl; simp [h1]
  | crev => obtain ⟨_, _, _, _, _, _, _, ⟨P, h1⟩⟩ := hl; simp [h1]
  | crevSet => obtain ⟨_, _, _, _, _, _, _, ⟨P, h1⟩⟩ := hl; simp [h1]
  | capply => obtain ⟨_, ⟨_, _, ⟨P, h1⟩⟩, _⟩ := hl; simp [h1]
  | cread => obtain ⟨_, _, _, _, ⟨_, _, ⟨P, h1⟩⟩, _⟩ := hl; simp [h1]
  | cdestroy => obtain ⟨_, _, _, _, ⟨_, _, ⟨P, h1⟩⟩, _⟩ := hl; simp [h1]
  | eload => obtain ⟨_, ⟨P, h1⟩⟩ := hl; simp [h1]
  | rsv => obtain ⟨_, _, ⟨P, h1⟩⟩ := hl; simp [h1]
  | undo => obtain ⟨_, _, ⟨P, h1⟩⟩ := hl; simp [h1]
  | undoD => obtain ⟨_, _, _, _, ⟨P, h1⟩⟩ := hl; simp [h1]
  | ret => obtain ⟨_, ⟨P, h1⟩⟩ := hl; simp [h1]
  | err => exact hl.elim

theorem GInv.idle_iff {g : G} {c : CState (spec α cfg.fixed)} (hi : GInv cfg C g c) (t : Nat) :
    C.pc t = .idle ↔ c.status t = .idle := (hi.loc t).idle_iff

/-- **C14 (sequential use).** From any configuration in which no call is in progress, a call made by one thread
while the others do nothing behaves exactly as the sequential specification says, on the contents of the stack
in memory. -/
theorem stack_solo_call (hx : FreshExec cfg n h C) (hq : ∀ t, C.pc t = .idle) {t : Nat} {o : Op α} {r : Ret α}
    {C' : Conf α} (hs : MSteps (mach α cfg) (okFresh cfg) C [.inv t o, .res t r] C') :
    (∀ t, C'.pc t = .idle) ∧ ∃ vs vs', Holds C.s vs ∧ Holds C'.s vs' ∧ specStep cfg.fixed vs o r vs' := by
  obtain ⟨g, c, hi, _⟩ := hx.inv
  obtain ⟨c', ⟨g', hi'⟩, h1, h2⟩ := MSteps.solo (stack_sim cfg) (c := c) ⟨g, hi⟩
    (fun t => (hi.idle_iff t).1 (hq t)) hs (List.prefix_refl _)
  rcases h2 with ⟨h2, _⟩ | ⟨h2, _⟩ | ⟨r', h2, h3, h4⟩
  · simp at h2
  · simp at h2
  · simp at h2
    subst h2
    refine ⟨fun t' => (hi'.idle_iff t').2 ?_, c.st, c'.st, hi.si.holds, hi'.si.holds, h4⟩
    by_cases ht : t' = t
    · subst ht; exact h3
    · exact h1 t' ht

end Verif.Stack
