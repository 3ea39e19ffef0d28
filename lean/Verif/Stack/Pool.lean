import Verif.Stack.Safety

/-!
# Stack: where every node is, exhaustion, memory requests, exceptions (C19, C20, C23, C39)
-/

namespace Verif.Stack
open Lin

variable {α : Type} {cfg : Cfg} {n : Nat} {h : History (Op α) (Ret α)} {C : Conf α}

/-! ### Nodes dropped by throwing user code -/

/-- Executions (without complete tag wrap) that record the set `D` of nodes dropped: those that a thread had in
its hands before, and no longer after, a step in which a copy constructor or a functor threw. -/
inductive ExecD (cfg : Cfg) (n : Nat) : History (Op α) (Ret α) → Conf α → (Nat → Prop) → Prop where
  | init : ExecD cfg n [] (Conf.initial n) fun _ => False
  | step {h C D t ch s' p' e} : ExecD cfg n h C D → tstep cfg t C.s (C.pc t) ch = some (s', p', e) →
      okFresh cfg C.s (C.pc t) ch →
      ExecD cfg n (h ++ e.toList) ⟨s', upd C.pc t p'⟩ fun m =>
        D m ∨ (leaky (C.pc t) ch = true ∧ HeldBy C.s.heap (C.pc t) m ∧ ¬ HeldBy s'.heap p' m)

theorem ExecD.freshExec {D} (hx : ExecD cfg n h C D) : FreshExec cfg n h C := by
  induction hx with
  | init => exact .refl _
  | step _ hs hok ih => exact .step ih hs hok

theorem FreshExec.execD (hx : FreshExec cfg n h C) : ∃ D, ExecD cfg n h C D := by
  induction hx with
  | refl => exact ⟨_, .init⟩
  | step _ hs hok ih => obtain ⟨D, ih⟩ := ih; exact ⟨_, .step ih hs hok⟩

/-- If no copy constructor and no functor throws, nothing is dropped. -/
theorem ExecD.of_clean (hx : MSteps (mach α cfg) (okClean cfg) (Conf.initial n) h C) :
    ∃ D, ExecD cfg n h C D ∧ ∀ m, ¬ D m := by
  induction hx with
  | refl => exact ⟨_, .init, fun _ h => h⟩
  | step _ hs hok ih =>
    obtain ⟨D, h1, h2⟩ := ih
    refine ⟨_, .step h1 hs hok.1, ?_⟩
    rintro m (hm | ⟨hm, _⟩)
    · exact h2 m hm
    · simp [hok.2] at hm

theorem ExecD.inv {D} (hx : ExecD cfg n h C D) :
    ∃ g c, GInv cfg C g c ∧ CReach (spec α cfg.fixed) h c ∧ ∀ m, g.own m = .lost ↔ D m := by
  induction hx with
  | init => exact ⟨_, _, .initial cfg n, .init, fun m => by simp only [initOwn]; split <;> simp⟩
  | @step h C D t ch s' p' e _ hs hok ih =>
    obtain ⟨g, c, hi, hr, hD⟩ := ih
    obtain ⟨g', c', hi', hm, hg, _⟩ := hi.step hs hok.1 hok.2
    refine ⟨g', c', hi', hr.move hm, fun m => ?_⟩
    have h1 : HeldBy s'.heap p' m ↔ g'.own m = .thr t := by simpa using hi'.heldBy t m
    simp only [hi.heldBy, h1]
    constructor
    · intro hl
      rcases hg.lost m hl with h | ⟨h2, h3⟩
      · exact .inl ((hD m).1 h)
      · exact .inr ⟨h2, h3, by simp [hl]⟩
    · rintro (h | ⟨h2, h3, h4⟩)
      · exact hg.keep m ((hD m).2 h)
      · rcases hg.drop h2 m h3 with h | h
        · exact absurd h h4
        · exact h

/-! ### C20: every node is somewhere -/

/-- **C20.** At any moment every allocated node is in the stack, in the freelist, in the hands of an operation
in progress, or was dropped by throwing user code. (It is in only one of these places by
`stack_ownership_exclusive` and `dropped_nodes_unused`.) -/
theorem stack_nodes_accounted {D} (hx : ExecD cfg n h C D) (m : Nat) :
    m < C.s.heap.nalloc ↔
      (InStack C.s m ∨ InFree C.s m ∨ (∃ t, HeldBy C.s.heap (C.pc t) m) ∨ D m) := by
  obtain ⟨g, c, hi, _, hD⟩ := hx.inv
  simp only [hi.inStack, hi.inFree, hi.heldBy, ← hD]
  have := hi.si.heap.raw m
  cases hm : g.own m <;> simp [hm] at this ⊢ <;> omega

/-- **C20.** Without exceptions from user code no node is leaked: each is in the stack, in the freelist or held
by an operation in progress. -/
theorem stack_no_leak (hx : MSteps (mach α cfg) (okClean cfg) (Conf.initial n) h C) {m : Nat}
    (hm : m < C.s.heap.nalloc) :
    InStack C.s m ∨ InFree C.s m ∨ ∃ t, HeldBy C.s.heap (C.pc t) m := by
  obtain ⟨D, h1, h2⟩ := ExecD.of_clean hx
  have := (stack_nodes_accounted h1 m).1 hm
  have := h2 m
  tauto

/-- **C23.** A dropped node is not in the stack, not in the freelist and not held by any operation. -/
theorem dropped_nodes_unused {D} (hx : ExecD cfg n h C D) {m : Nat} (hm : D m) :
    ¬ InStack C.s m ∧ ¬ InFree C.s m ∧ ∀ t, ¬ HeldBy C.s.heap (C.pc t) m := by
  obtain ⟨g, c, hi, _, hD⟩ := hx.inv
  simp only [hi.inStack, hi.inFree, hi.heldBy, (hD m).2 hm]
  simp

theorem ExecD.steps {D h' C'} (hx : ExecD cfg n h C D) (hs : MSteps (mach α cfg) (okFresh cfg) C h' C') :
    ∃ D', ExecD cfg n (h ++ h') C' D' ∧ ∀ m, D m → D' m ∧ C'.s.heap.data m = C.s.heap.data m := by
  induction hs with
  | refl => exact ⟨D, by simpa using hx, fun _ h => ⟨h, rfl⟩⟩
  | @step h' C' t ch s' p' e _ hs hok ih =>
    obtain ⟨D', h1, h2⟩ := ih
    have h9 := ExecD.step h1 hs hok
    rw [List.append_assoc] at h9
    refine ⟨_, h9, fun m hm => ⟨.inl (h2 m hm).1, ?_⟩⟩
    obtain ⟨g, c, hi, _, hD⟩ := h1.inv
    obtain ⟨g', c', hi', hmv, hg, _⟩ := hi.step hs hok.1 hok.2
    have h3 := (hD m).2 (h2 m hm).1
    have h4 := hg.keep m h3
    rw [← (h2 m hm).2]
    exact (hg.frame m (by simp [h3]) (by simp [h4])).2

/-- **C23.** A dropped node is never used again, and its element is never destroyed. -/
theorem dropped_nodes_forever {D h' C'} (hx : ExecD cfg n h C D) {m : Nat} (hm : D m)
    (hs : MSteps (mach α cfg) (okFresh cfg) C h' C') :
    ¬ InStack C'.s m ∧ ¬ InFree C'.s m ∧ (∀ t, ¬ HeldBy C'.s.heap (C'.pc t) m) ∧
      C'.s.heap.data m = C.s.heap.data m := by
  obtain ⟨D', h1, h2⟩ := hx.steps hs
  obtain ⟨h3, h4, h5⟩ := dropped_nodes_unused h1 (h2 m hm).1
  exact ⟨h3, h4, h5, (h2 m hm).2⟩

/-! ### C23: exceptions -/

/-- **C23 (allocator).** If the allocator throws inside `push`, shared memory is unchanged and the call
propagates the exception. -/
theorem push_alloc_throw {t b v a s' p' e} {s : St α}
    (hs : tstep cfg t s (.alloc b (.one v) a) .throw = some (s', p', e)) : s' = s ∧ p' = .ret .threw := by
  cases a <;> simp only [tstep, aStep, reduceCtorEq] at hs
  rename_i o
  cases ho : o.v.ptr <;> simp only [ho] at hs
  · by_cases hf : (cfg.fixed || b) = true <;> simp [hf, onThrow] at hs
    exact ⟨hs.1.symm, hs.2.1.symm⟩
  · simp at hs

/-- **C23 (copy constructor in `push`).** The contents of the stack are unchanged, the exception propagates,
and exactly the node just taken from the pool is dropped. -/
theorem push_copy_throw {D t b v m s' p' e} (hx : ExecD cfg n h C D) (hp : C.pc t = .constr b (.one v) m)
    (hs : tstep cfg t C.s (C.pc t) .throw = some (s', p', e)) :
    s' = C.s ∧ p' = .ret .threw ∧ ∃ D', ExecD cfg n h ⟨s', upd C.pc t p'⟩ D' ∧ ∀ x, D' x ↔ D x ∨ x = m := by
  have hok : okFresh cfg C.s (C.pc t) (.throw : Choice (Op α)) := by
    rw [hp]; exact ⟨trivial, by simp⟩
  have h1 := ExecD.step hx hs hok
  rw [hp] at hs h1
  simp only [tstep, onThrow, Option.some.injEq, Prod.mk.injEq] at hs
  obtain ⟨rfl, rfl, rfl⟩ := hs
  exact ⟨rfl, rfl, _, by simpa using h1, fun x => by simp [leaky, HeldBy]⟩

/-- **C23 (copy constructor in a range push).** When the copy constructor throws at the second or a later
element, only that element's node is dropped; the call goes on to return the nodes prepared before to the
freelist, and its result is the exception; nothing is pushed (`specStep` for `threw`). -/
theorem range_copy_throw {D t b acc top l v rest m s' p' e} (hx : ExecD cfg n h C D)
    (hp : C.pc t = .constr b (.range acc (some (top, l)) v rest) m)
    (hs : tstep cfg t C.s (C.pc t) .throw = some (s', p', e)) :
    s' = C.s ∧ p' = .undo top ∧
      ∃ D', ExecD cfg n h ⟨s', upd C.pc t p'⟩ D' ∧ ∀ x, D' x ↔ D x ∨ x = m := by
  have hok : okFresh cfg C.s (C.pc t) (.throw : Choice (Op α)) := by
    rw [hp]; exact ⟨trivial, by simp⟩
  have h1 := ExecD.step hx hs hok
  obtain ⟨g, c, hi, _⟩ := hx.inv
  have hl := hi.loc t
  have hnd := hi.si.heap.hnodup t
  rw [hp] at hs h1 hl
  simp only [tstep, onThrow, Option.some.injEq, Prod.mk.injEq] at hs
  obtain ⟨rfl, rfl, rfl⟩ := hs
  refine ⟨rfl, rfl, _, by simpa using h1, fun x => ?_⟩
  obtain ⟨l', h2, h3, _⟩ := hl
  rw [h2, List.nodup_cons] at hnd
  simp only [leaky, HeldBy, reach_iff h3.1]
  constructor
  · rintro (h | ⟨_, h | h, h'⟩)
    · exact .inl h
    · exact .inr h
    · exact absurd h h'
  · rintro (h | rfl)
    · exact .inl h
    · exact .inr ⟨trivial, .inl rfl, hnd.1⟩

/-- **C23 (functor of `consume_one`).** When the functor throws, the element has been removed; it is not
destroyed, and its node is dropped (so, by `dropped_nodes_forever`, neither is ever used again). -/
theorem pop_functor_throw {D t m s' p' e} (hx : ExecD cfg n h C D) (hp : C.pc t = .papply true m)
    (hs : tstep cfg t C.s (C.pc t) .go = some (s', p', e)) :
    s' = C.s ∧ ∃ v, C.s.heap.data m = some v ∧ p' = .ret (.popped (some v)) ∧ ¬ InStack C.s m ∧
      ∃ D', ExecD cfg n h ⟨s', upd C.pc t p'⟩ D' ∧ ∀ x, D' x ↔ D x ∨ x = m := by
  have hok : okFresh cfg C.s (C.pc t) (.go : Choice (Op α)) := by
    rw [hp]; exact ⟨trivial, by simp⟩
  have h1 := ExecD.step hx hs hok
  obtain ⟨g, c, hi, _⟩ := hx.inv
  have hl := hi.loc t
  have hst := (stack_ownership_exclusive hx.freshExec m).2 t
  rw [hp] at hs h1 hl hst
  obtain ⟨h2, v, h3, h4⟩ := hl
  simp [tstep, h3] at hs
  obtain ⟨rfl, rfl, rfl⟩ := hs
  refine ⟨rfl, v, h3, rfl, (hst rfl).1, _, by simpa using h1, fun x => by simp [leaky, HeldBy]⟩

/-! ### C19: failing pushes and memory requests -/

theorem tstep_to_test {t : Nat} {s s' : St α} {p ch b k o e}
    (hs : tstep cfg t s p ch = some (s', .alloc b k (.test o), e)) :
    p ≠ .idle ∧ s' = s ∧ o = s.heap.poolSnap := by
  have ht := trans_of_tstep hs
  generalize hp' : PC.alloc b k (.test o) = p' at ht
  cases ht with
  | call h => exact absurd hp'.symm ((start_ne h).2.2.2 _ _ _)
  | @allocNull b k a ch h h1 => rcases k with _ | ⟨_, _ | _, _, _⟩ <;> simp [onNull] at hp'
  | @allocBad b k a ch h h1 => rcases k with _ | ⟨_, _ | _, _, _⟩ <;> simp [onThrow] at hp'
  | @constrThrow b k n => rcases k with _ | ⟨_, _ | _, _, _⟩ <;> simp [onThrow] at hp'
  | @rlinkFirst b acc v rest n => cases rest <;> simp [onLinked] at hp'
  | @rlinkNext b acc top e v rest n => cases rest <;> simp [onLinked] at hp'
  | @freeDone k n d ch h h1 => rcases k with _ | ⟨_, _, _ | _⟩ | _ | (_ | _) <;> simp [onFreed] at hp'
  | @ccasOk rev thr o n h1 h2 => cases rev <;> simp at hp'
  | allocMore h =>
    cases hp'
    obtain ⟨rfl, rfl⟩ := aStep_to_test h
    exact ⟨by simp, rfl, rfl⟩
  | _ => simp at hp'

/-- Where `ret (pushed false)` comes from. -/
theorem tstep_to_pushed_false {g : G} {c : CState (spec α cfg.fixed)} (hi : GInv cfg C g c) {t : Nat}
    {s' : St α} {ch e} (hs : tstep cfg t C.s (C.pc t) ch = some (s', .ret (.pushed false), e)) :
    ∃ b v o, C.pc t = .alloc b (.one v) (.test o) ∧ o.v.ptr = none := by
  have hl := hi.loc t
  generalize C.pc t = p at hs hl
  have ht := trans_of_tstep hs
  generalize hp' : PC.ret (.pushed false) = p' at ht
  cases ht with
  | call h => exact absurd hp'.symm ((start_ne h).2.1 _)
  | @allocNull b k a ch h h1 =>
    rcases k with v | ⟨_, _ | _, _, _⟩ <;> simp [onNull] at hp'
    obtain ⟨o, rfl, ho⟩ := aStep_null h1
    exact ⟨b, v, o, rfl, ho⟩
  | @allocBad b k a ch h h1 => rcases k with _ | ⟨_, _ | _, _, _⟩ <;> simp [onThrow] at hp'
  | @constrThrow b k n => rcases k with _ | ⟨_, _ | _, _, _⟩ <;> simp [onThrow] at hp'
  | @rlinkFirst b acc v rest n => cases rest <;> simp [onLinked] at hp'
  | @rlinkNext b acc top e v rest n => cases rest <;> simp [onLinked] at hp'
  | @freeDone k n d ch h h1 => rcases k with _ | ⟨_, _, _ | _⟩ | _ | (_ | _) <;> simp [onFreed] at hp'
  | @ccasOk rev thr o n h1 h2 => cases rev <;> simp at hp'
  | lcasOk =>
    cases hp'
    obtain ⟨o, vs, h1, h2, h3, h4, h5⟩ := hl
    have hne : vs ≠ [] := by rintro rfl; simp at h3; simp [h3] at h2
    have := h5 []
    cases o <;> simp [specStep] at this
    exact absurd this.2 hne
  | _ => simp at hp'

theorem inFree_of_null {s : St α} (hp : s.heap.pool.ptr = none) (m : Nat) : ¬ InFree s m := by
  rintro ⟨l, h1, h2⟩
  rw [hp] at h1
  rw [h1.eq_nil] at h2
  simp at h2

/-- **C19.** A single-element push returns false only if it is bounded (or the stack is fixed-size), and only if
at some moment between its call and its return no node was available: every node was in the stack, in the hands
of another operation in progress, or dropped by throwing user code. -/
theorem push_false_was_exhausted (hx : FreshExec cfg n h C) {i j} (hr : Returned h i j (.pushed false)) :
    ∃ t b v k C₁ D, h[i]? = some (.inv t (.push b v)) ∧ (cfg.fixed || b) = true ∧ i < k ∧ k ≤ j ∧
      ExecD cfg n (h.take k) C₁ D ∧ MSteps (mach α cfg) (okFresh cfg) C₁ (h.drop k) C ∧
      ∀ m, m < C₁.s.heap.nalloc →
        InStack C₁.s m ∨ (∃ t', t' ≠ t ∧ HeldBy C₁.s.heap (C₁.pc t') m) ∨ D m := by
  have key := hx.moment (lawful cfg) (i := i) (j := j) (r := .pushed false)
    (fun p => (∃ b v o, p = .alloc b (.one v) (.test o) ∧ o.v.ptr = none) ∨ p = .ret (.pushed false))
    (fun t C => C.s.heap.pool.ptr = none ∧ ∃ b v o, C.pc t = .alloc b (.one v) (.test o)) (by simp [mach])
    (fun t => by simp [Conf.initial])
    (fun h C t ch s' p' e hx hs _ hP => by
      rcases hP with ⟨b, v, o, rfl, ho⟩ | rfl
      · obtain ⟨h1, rfl, rfl⟩ := tstep_to_test hs
        exact .inr ⟨h1, ho, by simp⟩
      · obtain ⟨g, c, hi, _⟩ := FreshExec.inv hx
        exact .inl (.inl (tstep_to_pushed_false hi hs))) hr (by simp [mach])
  obtain ⟨t, o, k, C₁, h0, h1, h2, h3, h4, h5, b', v', o', h6⟩ := key
  obtain ⟨D, hD⟩ := FreshExec.execD h3
  obtain ⟨σ, σ', hst⟩ := (stack_linearizable hx).step_of_call (mem_calls.2 ⟨⟨t, h0⟩, j, hr⟩)
  cases o with
  | push b v =>
    simp [spec, specStep] at hst
    refine ⟨t, b, v, k, C₁, D, h0, by simpa using hst.1, h1, h2, hD, h4, fun m hm => ?_⟩
    rcases (stack_nodes_accounted hD m).1 hm with h | h | ⟨t', h⟩ | h
    · exact .inl h
    · exact absurd h (inFree_of_null h5 m)
    · refine .inr (.inl ⟨t', ?_, h⟩)
      rintro rfl
      rw [h6] at h
      exact h
    · exact .inr (.inr h)
  | _ => simp [spec, specStep] at hst

/-- What a call may request from the allocator at most. -/
def budget (fixed : Bool) : Op α → Nat
  | .push b _ => if fixed || b then 0 else 1
  | .pushRange b vs => if fixed || b then 0 else vs.length
  | .reserve k => if fixed then 0 else k
  | _ => 0

def eventBudget (fixed : Bool) : Event (Op α) (Ret α) → Nat
  | .inv _ o => budget fixed o
  | .res _ _ => 0

/-- Upper bound of the memory requests of the calls of a history. -/
def totalBudget (fixed : Bool) (h : History (Op α) (Ret α)) : Nat := (h.map (eventBudget fixed)).sum

/-- Requests a thread may still make. -/
def allowance (fixed : Bool) : PC α → Nat
  | .alloc b (.one _) _ => if fixed || b then 0 else 1
  | .alloc b (.range _ _ _ rest) _ => if fixed || b then 0 else rest.length + 1
  | .constr b (.range _ _ _ rest) _ => if fixed || b then 0 else rest.length
  | .rlink b _ _ _ rest _ => if fixed || b then 0 else rest.length
  | .rsv k => k
  | .free (.rsv k) _ _ => k
  | _ => 0

theorem tstep_allowance {t : Nat} {s s' : St α} {p p' ch e} (hs : tstep cfg t s p ch = some (s', p', e)) :
    s.heap.nalloc ≤ s'.heap.nalloc ∧
    s'.heap.nalloc + allowance cfg.fixed p' ≤
      s.heap.nalloc + allowance cfg.fixed p + (e.toList.map (eventBudget cfg.fixed)).sum := by
  cases trans_of_tstep hs with
  | @call o p hp =>
    refine ⟨Nat.le_refl _, ?_⟩
    unfold start at hp
    split at hp <;> (repeat' split at hp) <;> simp at hp <;> subst hp <;>
      simp_all [allowance, eventBudget, budget]
  | @allocMore b k a ch hp a' h1 =>
    rcases aStep_nalloc h1 with h2 | ⟨h2, h3, ⟨_, h4⟩, _⟩
    · cases k <;> simp [allowance, h2]
    · simp at h4
  | @allocGot b k a ch hp m h1 =>
    rcases aStep_nalloc h1 with h2 | ⟨h2, h3, _⟩
    · cases k <;> simp [allowance, h2]; split <;> simp
    · cases k <;> simp [allowance, h2, h3]; omega
  | @allocNull b k a ch hp h1 =>
    rcases aStep_nalloc h1 with h2 | ⟨h2, h3, ⟨_, h4⟩, _⟩
    · rcases k with _ | ⟨_, _ | _, _, _⟩ <;> simp [allowance, h2, onNull]
    · simp at h4
  | @allocBad b k a ch hp h1 =>
    rcases aStep_nalloc h1 with h2 | ⟨h2, h3, ⟨_, h4⟩, _⟩
    · rcases k with _ | ⟨_, _ | _, _, _⟩ <;> simp [allowance, h2, onThrow]
    · simp at h4
  | @constrThrow b k m => rcases k with _ | ⟨_, _ | _, _, _⟩ <;> simp [allowance, onThrow]
  | @rlinkFirst b acc v rest m => cases rest <;> simp [allowance, onLinked, Heap.setNextPtr]
  | @rlinkNext b acc top e v rest m => cases rest <;> simp [allowance, onLinked, Heap.setNextPtr]
  | @freeMore k m d ch hp d' h1 =>
    have := (dStep_ver h1).2
    cases k <;> simp [allowance, this]
  | @freeDone k m d ch hp h1 =>
    have := (dStep_ver h1).2
    rcases k with _ | ⟨_, _, _ | _⟩ | _ | (_ | _) <;> simp [allowance, this, onFreed]
  | @ccasOk rev thr o m h1 h2 => cases rev <;> simp [allowance]
  | rsv => simp [allowance, Heap.malloc]; omega
  | _ => simp [allowance, eventBudget, Heap.setData, Heap.setNextPtr]

theorem Exec.budget (hx : Exec cfg n h C) (T : Nat) :
    n ≤ C.s.heap.nalloc ∧
    C.s.heap.nalloc + sumTo (fun t => allowance cfg.fixed (C.pc t)) T ≤ n + totalBudget cfg.fixed h := by
  induction hx generalizing T with
  | refl =>
    have h0 : (Conf.initial n : Conf α).s.heap.nalloc = n := by
      simp [Conf.initial, Heap.initial, Heap.addNodes_nalloc, Heap.empty]
    have : ∀ T, sumTo (fun t => allowance cfg.fixed ((Conf.initial n : Conf α).pc t)) T = 0 := by
      intro T; induction T with
      | zero => rfl
      | succ T ih => simp only [sumTo, ih]; rfl
    rw [this, h0]; simp
  | @step h C t ch s' p' e hx hs _ ih =>
    have h1 := tstep_allowance hs
    have h2 := (ih (max T (t + 1))).2
    have h3 := (ih 0).1
    have h4 := sumTo_upd (fun t => allowance cfg.fixed (C.pc t)) t (allowance cfg.fixed p')
      (T := max T (t + 1)) (by omega)
    have h5 : (fun x => allowance cfg.fixed (upd C.pc t p' x)) =
        upd (fun t => allowance cfg.fixed (C.pc t)) t (allowance cfg.fixed p') := by
      funext x; simp only [upd_apply]; split <;> rfl
    simp only [h5]
    have h6 := sumTo_mono (upd (fun t => allowance cfg.fixed (C.pc t)) t (allowance cfg.fixed p'))
      (Nat.le_max_left T (t + 1))
    simp only [totalBudget, List.map_append, List.sum_append] at h2 ⊢
    omega

/-- **C39.** The number of nodes ever requested from the allocator (including the initial pool of `n`) never
exceeds the initial pool plus, over the calls made so far: 1 per unbounded push, the length of the range per
unbounded range push, `k` per `reserve(k)`; it is never less than `n`. -/
theorem stack_memory_requests (hx : Exec cfg n h C) :
    n ≤ C.s.heap.nalloc ∧ C.s.heap.nalloc ≤ n + totalBudget cfg.fixed h := by
  have := hx.budget 0; simpa [sumTo] using this

/-- **C19.** If only bounded pushes are made (or the stack is fixed-size) and nothing is reserved, the stack
never requests memory: it lives with its initial `n` nodes. -/
theorem bounded_push_never_allocates (hx : Exec cfg n h C)
    (hb : ∀ t o, Event.inv t o ∈ h → cfg.fixed = true ∨
      (∀ v, o ≠ .push false v) ∧ (∀ vs, o ≠ .pushRange false vs) ∧ ∀ k, o ≠ .reserve k) :
    C.s.heap.nalloc = n := by
  have h1 := stack_memory_requests hx
  have h2 : totalBudget cfg.fixed h = 0 := by
    refine sum_map_zero fun e he => ?_
    cases e with
    | res => rfl
    | inv t o =>
      have := hb t o he
      cases o with
      | push b v => cases b <;> simp_all [eventBudget, Stack.budget]
      | pushRange b v => cases b <;> simp_all [eventBudget, Stack.budget]
      | reserve k => simp_all [eventBudget, Stack.budget]
      | _ => rfl
  omega

/-- **C19.** No step of a bounded push, or of any push on a fixed-size stack, requests memory. -/
theorem bounded_step_no_request {t b k a ch s' p' e} {s : St α} (hb : (cfg.fixed || b) = true)
    (hs : tstep cfg t s (.alloc b k a) ch = some (s', p', e)) : s'.heap.nalloc = s.heap.nalloc := by
  have key : ∀ hp r, aStep cfg b s.heap a ch = some (hp, r) → hp.nalloc = s.heap.nalloc := by
    intro hp r h1
    rcases aStep_nalloc h1 with h | ⟨_, h, _⟩
    · exact h
    · simp [h] at hb
  cases trans_of_tstep hs with
  | allocMore h | allocGot h | allocNull h | allocBad h => exact key _ _ h

/-- **C39.** A step requests memory only one node at a time, and only in `reserve` or in an unbounded push that
saw the freelist empty at an earlier moment of the same call. -/
theorem stack_request_after_empty {ok} (hx : MSteps (mach α cfg) ok (Conf.initial n) h C) {t ch s' p' e}
    (hs : tstep cfg t C.s (C.pc t) ch = some (s', p', e)) (hne : s'.heap.nalloc ≠ C.s.heap.nalloc) :
    s'.heap.nalloc = C.s.heap.nalloc + 1 ∧
    ((∃ k, C.pc t = .rsv (k + 1)) ∨
      ((∃ k o, C.pc t = .alloc false k (.test o)) ∧ cfg.fixed = false ∧
        ∃ h₁ C₁ h₂, h = h₁ ++ h₂ ∧ MSteps (mach α cfg) ok (Conf.initial n) h₁ C₁ ∧ MSteps (mach α cfg) ok C₁ h₂ C ∧
          C₁.pc t ≠ .idle ∧ (∀ e ∈ h₂, e.tid ≠ t) ∧ ∀ m, ¬ InFree C₁.s m)) := by
  generalize hp : C.pc t = p at hs
  have key : ∀ {b k a hp' r}, p = .alloc b k a → aStep cfg b C.s.heap a ch = some (hp', r) →
      hp'.nalloc ≠ C.s.heap.nalloc → hp'.nalloc = C.s.heap.nalloc + 1 ∧
      ((∃ k, p = .rsv (k + 1)) ∨
      ((∃ k o, p = .alloc false k (.test o)) ∧ cfg.fixed = false ∧
        ∃ h₁ C₁ h₂, h = h₁ ++ h₂ ∧ MSteps (mach α cfg) ok (Conf.initial n) h₁ C₁ ∧ MSteps (mach α cfg) ok C₁ h₂ C ∧
          C₁.pc t ≠ .idle ∧ (∀ e ∈ h₂, e.tid ≠ t) ∧ ∀ m, ¬ InFree C₁.s m)) := by
    intro b k a hp' r hpa h1 h2
    rcases aStep_nalloc h1 with h | ⟨h3, h4, _, o, rfl, ho⟩
    · exact absurd h h2
    · simp at h4
      obtain ⟨h4, rfl⟩ := h4
      refine ⟨h3, .inr ⟨⟨k, o, hpa⟩, h4, ?_⟩⟩
      obtain ⟨h₁, C₁, h₂, h5, h6, h7, h8, h9, h10⟩ := hx.origin (lawful cfg) (t := t)
        (fun p => ∃ b k o, p = .alloc b k (.test o) ∧ o.v.ptr = none)
        (fun C => C.s.heap.pool.ptr = none) (by simp [mach]) (by simp [Conf.initial])
        (fun h C ch s' p' e _ hs _ hP => by
          obtain ⟨b, k, o, rfl, ho⟩ := hP
          obtain ⟨h1, rfl, rfl⟩ := tstep_to_test hs
          exact .inr ⟨h1, ho⟩) ⟨_, _, o, hp.trans hpa, ho⟩
      exact ⟨h₁, C₁, h₂, h5, h6, h7, h9, h10, inFree_of_null h8⟩
  cases trans_of_tstep hs with
  | allocMore h | allocGot h | allocNull h | allocBad h => exact key rfl h hne
  | rsv => exact ⟨rfl, .inl ⟨_, rfl⟩⟩
  | freeMore h1 | freeDone h1 => exact absurd (dStep_ver h1).2 hne
  | _ => exact absurd rfl hne

end Verif.Stack
