import Verif.Queue.Safety

/-!
# Queue: where every node is, capacity, exhaustion, memory requests, exceptions (C19, C20, C23, C29, C38, C39)
-/

namespace Verif.Queue
open Lin

variable {α : Type} {cfg : Cfg} {n : Nat} {h : History (Op α) (Ret α)} {C : Conf α}

/-! ### Nodes dropped by throwing user code -/

/-- Executions (without complete tag wrap) that record the set `D` of nodes dropped: those that a thread had in
its hands before, and no longer after, a step in which a copy constructor threw. -/
inductive ExecD (cfg : Cfg) (n : Nat) : History (Op α) (Ret α) → Conf α → (Nat → Prop) → Prop where
  | init : ExecD cfg n [] (Conf.initial cfg n) fun _ => False
  | step {h C D t ch s' p' e} : ExecD cfg n h C D → tstep cfg t C.s (C.pc t) ch = some (s', p', e) →
      fresh cfg C.s (C.pc t) →
      ExecD cfg n (h ++ e.toList) ⟨s', upd C.pc t p'⟩ fun m =>
        D m ∨ (leaky (C.pc t) ch = true ∧ HeldBy (C.pc t) m ∧ ¬ HeldBy p' m)

/-- Steps without complete tag wrap and without exception from a copy constructor in `push`. -/
def okClean (cfg : Cfg) (s : St α) (p : PC α) (ch : QChoice α) : Prop := fresh cfg s p ∧ leaky p ch = false

theorem ExecD.freshExec {D} (hx : ExecD cfg n h C D) : FreshExec cfg n h C := by
  induction hx with
  | init => exact .refl _
  | step _ hs hok ih => exact .step ih hs hok

theorem FreshExec.execD (hx : FreshExec cfg n h C) : ∃ D, ExecD cfg n h C D := by
  induction hx with
  | refl => exact ⟨_, .init⟩
  | step _ hs hf ih => obtain ⟨D, ih⟩ := ih; exact ⟨_, .step ih hs hf⟩

/-- If no copy constructor throws, nothing is dropped. -/
theorem ExecD.of_clean (hx : MSteps (mach α cfg) (okClean cfg) (Conf.initial cfg n) h C) :
    ∃ D, ExecD cfg n h C D ∧ ∀ m, ¬ D m := by
  induction hx with
  | refl => exact ⟨_, .init, fun _ h => h⟩
  | step _ hs hok ih =>
    obtain ⟨D, h1, h2⟩ := ih
    refine ⟨_, .step h1 hs hok.1, ?_⟩
    rintro m (hm | ⟨hm, _⟩)
    · exact h2 m hm
    · simp [hok.2] at hm

theorem initG_lost (n m : Nat) : (initG n).own m ≠ .lost := by
  simp only [initG, initOwn]; split <;> (try split) <;> simp

theorem ExecD.inv {D} (hx : ExecD cfg n h C D) :
    ∃ g c, GInv cfg C g c ∧ CReach (spec α cfg.fixed) h c ∧ ∀ m, g.own m = .lost ↔ D m := by
  induction hx with
  | init => exact ⟨_, _, .initial cfg n, .init, fun m => by simp [initG_lost]⟩
  | @step h C D t ch s' p' e _ hs hok ih =>
    obtain ⟨g, c, hi, hr, hD⟩ := ih
    obtain ⟨g', c', hi', hm, hg, _⟩ := hi.step hs hok
    refine ⟨g', c', hi', hr.move hm, fun m => ?_⟩
    have h1 : HeldBy p' m ↔ g'.own m = .thr t := by simpa using hi'.heldBy t m
    simp only [hi.heldBy, h1]
    constructor
    · intro hl
      rcases hg.lost m hl with h | ⟨h2, h3⟩
      · exact .inl ((hD m).1 h)
      · exact .inr ⟨h2, h3, by simp [hl]⟩
    · rintro (h | ⟨h2, h3, h4⟩)
      · exact hg.keep m ((hD m).2 h)
      · rcases hg.drop h2 m h3 with h | h
        · exact absurd h h4
        · exact h

/-! ### C20: every node is somewhere -/

/-- **C20.** At any moment every allocated node is in the queue (as an element or as the dummy), in the freelist,
in the hands of an operation in progress, or was dropped by throwing user code. (It is in only one of these
places by `queue_ownership_exclusive` and `queue_dropped_nodes_unused`.) -/
theorem queue_nodes_accounted {D} (hx : ExecD cfg n h C D) (m : Nat) :
    m < C.s.heap.nalloc ↔
      (InQueue C.s m ∨ InFree C.s m ∨ (∃ t, HeldBy (C.pc t) m) ∨ D m) := by
  obtain ⟨g, c, hi, _, hD⟩ := hx.inv
  simp only [hi.inQueue, hi.inFree, hi.heldBy, ← hD]
  have := hi.si.heap.raw m
  cases hm : g.own m <;> simp [hm] at this ⊢ <;> omega

/-- **C20.** Without exceptions from user code no node is leaked. -/
theorem queue_no_leak (hx : MSteps (mach α cfg) (okClean cfg) (Conf.initial cfg n) h C) {m : Nat}
    (hm : m < C.s.heap.nalloc) : InQueue C.s m ∨ InFree C.s m ∨ ∃ t, HeldBy (C.pc t) m := by
  obtain ⟨D, h1, h2⟩ := ExecD.of_clean hx
  have := (queue_nodes_accounted h1 m).1 hm
  have := h2 m
  tauto

/-- **C23.** A dropped node is not in the queue, not in the freelist and not held by any operation. -/
theorem queue_dropped_nodes_unused {D} (hx : ExecD cfg n h C D) {m : Nat} (hm : D m) :
    ¬ InQueue C.s m ∧ ¬ InFree C.s m ∧ ∀ t, ¬ HeldBy (C.pc t) m := by
  obtain ⟨g, c, hi, _, hD⟩ := hx.inv
  simp only [hi.inQueue, hi.inFree, hi.heldBy, (hD m).2 hm]
  simp

/-- **C23 (copy constructor in `push`).** The contents of the queue are unchanged, the exception propagates, and
exactly the node just taken from the pool is dropped. -/
theorem queue_push_copy_throw {D t b v m s' p' e} (hx : ExecD cfg n h C D) (hp : C.pc t = .constr b v m)
    (hs : tstep cfg t C.s (C.pc t) (.base .throw) = some (s', p', e)) :
    s' = C.s ∧ p' = .ret .threw ∧ ∃ D', ExecD cfg n h ⟨s', upd C.pc t p'⟩ D' ∧ ∀ x, D' x ↔ D x ∨ x = m := by
  have h1 := ExecD.step hx hs (by rw [hp]; trivial)
  rw [hp] at hs h1
  simp only [tstep, Option.some.injEq, Prod.mk.injEq] at hs
  obtain ⟨rfl, rfl, rfl⟩ := hs
  exact ⟨rfl, rfl, _, by simpa using h1, fun x => by simp [leaky, HeldBy]⟩

/-- **C23 (conversion in `pop`).** If copying the element out throws, shared memory is unchanged (the element
stays in the queue) and the exception propagates. -/
theorem queue_pop_throw {t H y s' p' e} {s : St α}
    (hs : tstep cfg t s (.cData H y) (.base .throw) = some (s', p', e)) : s' = s ∧ p' = .ret .threw := by
  simp only [tstep, Option.some.injEq, Prod.mk.injEq] at hs
  exact ⟨hs.1.symm, hs.2.1.symm⟩

/-! ### Clean executions: simulation without lost nodes -/

/-- Invariant of executions in which nothing was dropped. -/
def CleanInv (cfg : Cfg) (C : Conf α) (c : CState (spec α cfg.fixed)) : Prop :=
  ∃ g, GInv cfg C g c ∧ ∀ m, g.own m ≠ .lost

theorem queue_sim_clean (cfg : Cfg) : (mach α cfg).SimBy (okClean cfg) (spec α cfg.fixed) (CleanInv cfg) := by
  rintro C c t ch s' p' e ⟨g, hi, hl⟩ hs hok
  obtain ⟨g', c', hi', hm, hg, _⟩ := hi.step hs hok.1
  refine ⟨c', ⟨g', hi', fun m hm => ?_⟩, hm⟩
  rcases hg.lost m hm with h | ⟨h, _⟩
  · exact hl m h
  · simp [hok.2] at h

theorem clean_inv (hx : MSteps (mach α cfg) (okClean cfg) (Conf.initial cfg n) h C) :
    ∃ c, CleanInv cfg C c ∧ CReach (spec α cfg.fixed) h c :=
  hx.sim (queue_sim_clean cfg) ⟨_, GInv.initial cfg n, initG_lost n⟩

theorem Local.idle_iff {s : St α} {F L l st p} (hl : Local cfg s F L l st p) : p = .idle ↔ st = .idle := by
  cases p with
  | idle => simp [hl.2]
  | swing k T y =>
    rcases k with _ | _ | _
    · obtain ⟨_, b, v, _, ⟨P, h1⟩, _⟩ := hl; simp [h1]
    · obtain ⟨_, _, _, h1⟩ := hl; simp [h1]
    · obtain ⟨_, _, _, h1⟩ := hl; simp [h1]
  | pTail => obtain ⟨b, v, _, ⟨P, h1⟩, _⟩ := hl; simp [h1]
  | pNext => obtain ⟨⟨b, v, _, ⟨P, h1⟩, _⟩, _⟩ := hl; simp [h1]
  | pCheck => obtain ⟨⟨b, v, _, ⟨P, h1⟩, _⟩, _⟩ := hl; simp [h1]
  | pCas => obtain ⟨⟨b, v, _, ⟨P, h1⟩, _⟩, _⟩ := hl; simp [h1]
  | cCheck => obtain ⟨_, P, h1, _⟩ := hl; simp [h1]
  | free k n d =>
    obtain ⟨_, _, _, h1⟩ := hl
    cases k with
    | pop => obtain ⟨_, h1⟩ := h1; simp [h1]
    | rsv => obtain ⟨_, _, h1⟩ := h1; simp [h1]
  | rsv => obtain ⟨_, _, _, h1⟩ := hl; simp [h1]
  | ret r => obtain ⟨_, ⟨_, h1⟩ | ⟨_, _, h1, _⟩⟩ := hl <;> simp [h1]
  | err => exact hl.elim
  | cDestroy => obtain ⟨_, _, h1⟩ := hl; simp [h1]
  | alloc => obtain ⟨_, ⟨_, h1⟩, _⟩ := hl; simp [h1]
  | constr => obtain ⟨_, ⟨_, h1⟩, _⟩ := hl; simp [h1]
  | nload => obtain ⟨_, ⟨_, h1⟩, _⟩ := hl; simp [h1]
  | nstore => obtain ⟨_, ⟨_, h1⟩, _⟩ := hl; simp [h1]
  | cHead => obtain ⟨_, _, h1⟩ := hl; simp [h1]
  | cTail => obtain ⟨_, ⟨_, h1⟩, _⟩ := hl; simp [h1]
  | cNext => obtain ⟨_, ⟨_, h1⟩, _⟩ := hl; simp [h1]
  | cData => obtain ⟨_, ⟨_, h1⟩, _⟩ := hl; simp [h1]
  | cCas => obtain ⟨_, ⟨_, h1⟩, _⟩ := hl; simp [h1]
  | eHead => obtain ⟨_, _, h1⟩ := hl; simp [h1]
  | eTail => obtain ⟨_, _, h1⟩ := hl; simp [h1]
  | eHead2 => obtain ⟨_, _, h1⟩ := hl; simp [h1]

theorem GInv.idle_iff {g : G} {c : CState (spec α cfg.fixed)} (hi : GInv cfg C g c) (t : Nat) :
    C.pc t = .idle ↔ c.status t = .idle := (hi.loc t).idle_iff

/-- **C26 (sequential use).** From any configuration in which no call is in progress, a call made by one thread
while the others do nothing behaves exactly as the sequential specification says, on the contents of the queue
in memory. -/
theorem queue_solo_call (hx : FreshExec cfg n h C) (hq : ∀ t, C.pc t = .idle) {t : Nat} {o : Op α} {r : Ret α}
    {C' : Conf α} (hs : MSteps (mach α cfg) (okFresh cfg) C [.inv t o, .res t r] C') :
    (∀ t, C'.pc t = .idle) ∧ ∃ vs vs', Holds C.s vs ∧ Holds C'.s vs' ∧ specStep cfg.fixed vs o r vs' := by
  obtain ⟨g, c, hi, _⟩ := hx.inv
  obtain ⟨c', ⟨g', hi'⟩, h1, h2⟩ := MSteps.solo (queue_sim cfg) (c := c) ⟨g, hi⟩
    (fun t => (hi.idle_iff t).1 (hq t)) hs (List.prefix_refl _)
  rcases h2 with ⟨h2, _⟩ | ⟨h2, _⟩ | ⟨r', h2, h3, h4⟩
  · simp at h2
  · simp at h2
  · simp at h2
    subst h2
    refine ⟨fun t' => (hi'.idle_iff t').2 ?_, c.st, c'.st, hi.si.holds, hi'.si.holds, h4⟩
    by_cases ht : t' = t
    · subst ht; exact h3
    · exact h1 t' ht

/-! ### C19: failing pushes -/

theorem tstep_to_test {t : Nat} {s s' : St α} {p ch b k o e}
    (hs : tstep cfg t s p ch = some (s', .alloc b k (.test o), e)) :
    p ≠ .idle ∧ s' = s ∧ o = s.heap.poolSnap := by
  have ht := trans_of_tstep hs
  generalize hp' : PC.alloc b k (.test o) = p' at ht
  cases ht with
  | call h => exact absurd hp'.symm ((start_ne h).2.2.1 _ _ _)
  | allocMore h =>
    cases hp'
    obtain ⟨rfl, rfl⟩ := aStep_to_test h
    exact ⟨by simp, rfl, rfl⟩
  | @pCheck n T N h => unfold pBranch at hp'; split at hp' <;> simp at hp'
  | @cCheck H T N h => unfold cBranch at hp'; (repeat' split at hp') <;> simp at hp'
  | @swing k T y h => cases k <;> simp [onSwung] at hp'
  | @swingFail k T y h => cases k <;> simp [onSwung] at hp'
  | @freeDone k n d ch h h1 => cases k <;> simp [onFreed] at hp'
  | _ => simp at hp'

/-- Where `ret (pushed false)` comes from. -/
theorem tstep_to_pushed_false {t : Nat} {s s' : St α} {p ch e}
    (hs : tstep cfg t s p ch = some (s', .ret (.pushed false), e)) :
    ∃ b v o, p = .alloc b v (.test o) ∧ o.v.ptr = none := by
  have ht := trans_of_tstep hs
  generalize hp' : (PC.ret (.pushed false) : PC α) = p' at ht
  cases ht with
  | call h => exact absurd hp'.symm ((start_ne h).2.1 _)
  | @allocNull b v a ch h h1 =>
    obtain ⟨o, rfl, ho⟩ := aStep_null h1
    exact ⟨b, v, o, rfl, ho⟩
  | @pCheck n T N h => unfold pBranch at hp'; split at hp' <;> simp at hp'
  | @cCheck H T N h => unfold cBranch at hp'; (repeat' split at hp') <;> simp at hp'
  | @swing k T y h => cases k <;> simp [onSwung] at hp'
  | @swingFail k T y h => cases k <;> simp [onSwung] at hp'
  | @freeDone k n d ch h h1 => cases k <;> simp [onFreed] at hp'
  | _ => simp at hp'

theorem inFree_of_null {s : St α} (hp : s.heap.pool.ptr = none) (m : Nat) : ¬ InFree s m := by
  rintro ⟨l, h1, h2⟩
  rw [hp] at h1
  rw [h1.eq_nil] at h2
  simp at h2

/-- The failing moment of a push that returns false. -/
theorem push_false_moment {ok} {C₀ : Conf α} (hx : MSteps (mach α cfg) ok C₀ h C) (h0 : ∀ t, C₀.pc t = .idle)
    {i j} (hr : Returned h i j (.pushed false)) :
    ∃ t o k C₁, h[i]? = some (.inv t o) ∧ i < k ∧ k ≤ j ∧ MSteps (mach α cfg) ok C₀ (h.take k) C₁ ∧
      MSteps (mach α cfg) ok C₁ (h.drop k) C ∧ C₁.s.heap.pool.ptr = none ∧
      ∃ b v o, C₁.pc t = .alloc b v (.test o) :=
  hx.moment (lawful cfg) (i := i) (j := j) (r := .pushed false)
    (fun p => (∃ b v o, p = .alloc b v (.test o) ∧ o.v.ptr = none) ∨ p = .ret (.pushed false))
    (fun t C => C.s.heap.pool.ptr = none ∧ ∃ b v o, C.pc t = .alloc b v (.test o)) (by simp [mach])
    (fun t => by simp [h0 t])
    (fun h C t ch s' p' e hx hs _ hP => by
      rcases hP with ⟨b, v, o, rfl, ho⟩ | rfl
      · obtain ⟨h1, rfl, rfl⟩ := tstep_to_test hs
        exact .inr ⟨h1, ho, by simp⟩
      · exact .inl (.inl (tstep_to_pushed_false hs))) hr (by simp [mach])

/-- **C19.** A push returns false only if it is bounded (or the queue is fixed-size), and only if at some moment
between its call and its return no node was available: every node was in the queue, in the hands of another
operation in progress, or dropped by throwing user code. -/
theorem queue_push_false_was_exhausted (hx : FreshExec cfg n h C) {i j} (hr : Returned h i j (.pushed false)) :
    ∃ t b v k C₁ D, h[i]? = some (.inv t (.push b v)) ∧ (cfg.fixed || b) = true ∧ i < k ∧ k ≤ j ∧
      ExecD cfg n (h.take k) C₁ D ∧ MSteps (mach α cfg) (okFresh cfg) C₁ (h.drop k) C ∧
      ∀ m, m < C₁.s.heap.nalloc →
        InQueue C₁.s m ∨ (∃ t', t' ≠ t ∧ HeldBy (C₁.pc t') m) ∨ D m := by
  obtain ⟨t, o, k, C₁, h0, h1, h2, h3, h4, h5, b', v', o', h6⟩ := push_false_moment hx (fun _ => rfl) hr
  obtain ⟨D, hD⟩ := FreshExec.execD h3
  obtain ⟨σ, σ', hst⟩ := (queue_linearizable hx).step_of_call (mem_calls.2 ⟨⟨t, h0⟩, j, hr⟩)
  cases o with
  | push b v =>
    simp [spec, specStep] at hst
    refine ⟨t, b, v, k, C₁, D, h0, by simpa using hst.1, h1, h2, hD, h4, fun m hm => ?_⟩
    rcases (queue_nodes_accounted hD m).1 hm with h | h | ⟨t', h⟩ | h
    · exact .inl h
    · exact absurd h (inFree_of_null h5 m)
    · refine .inr (.inl ⟨t', ?_, h⟩)
      rintro rfl
      rw [h6] at h
      exact h
    · exact .inr (.inr h)
  | _ => simp [spec, specStep] at hst

/-! ### C39: memory requests -/

/-- What a call may request from the allocator at most. -/
def budget (fixed : Bool) : Op α → Nat
  | .push b _ => if fixed || b then 0 else 1
  | .reserve k => if fixed then 0 else k
  | _ => 0

def eventBudget (fixed : Bool) : Event (Op α) (Ret α) → Nat
  | .inv _ o => budget fixed o
  | .res _ _ => 0

/-- Upper bound of the memory requests of the calls of a history. -/
def totalBudget (fixed : Bool) (h : History (Op α) (Ret α)) : Nat := (h.map (eventBudget fixed)).sum

/-- Requests a thread may still make. -/
def allowance (fixed : Bool) : PC α → Nat
  | .alloc b _ _ => if fixed || b then 0 else 1
  | .rsv k => k
  | .free (.rsv k) _ _ => k
  | _ => 0

theorem tstep_allowance {t : Nat} {s s' : St α} {p p' ch e} (hs : tstep cfg t s p ch = some (s', p', e)) :
    s.heap.nalloc ≤ s'.heap.nalloc ∧
    s'.heap.nalloc + allowance cfg.fixed p' ≤
      s.heap.nalloc + allowance cfg.fixed p + (e.toList.map (eventBudget cfg.fixed)).sum := by
  cases trans_of_tstep hs with
  | @call o p hp =>
    refine ⟨Nat.le_refl _, ?_⟩
    unfold start at hp
    split at hp <;> (repeat' split at hp) <;> simp at hp <;> subst hp <;>
      simp_all [allowance, eventBudget, budget]
  | @allocMore b k a ch hp a' h1 =>
    rcases aStep_nalloc h1 with h2 | ⟨h2, h3, ⟨_, h4⟩, _⟩
    · simp [allowance, h2]
    · simp at h4
  | @allocGot b k a ch hp m h1 =>
    rcases aStep_nalloc h1 with h2 | ⟨h2, h3, _⟩
    · simp [allowance, h2]
    · simp [allowance, h2, h3]
  | @allocNull b k a ch hp h1 =>
    rcases aStep_nalloc h1 with h2 | ⟨h2, h3, ⟨_, h4⟩, _⟩
    · simp [allowance, h2]
    · simp at h4
  | @allocBad b k a ch hp h1 =>
    rcases aStep_nalloc h1 with h2 | ⟨h2, h3, ⟨_, h4⟩, _⟩
    · simp [allowance, h2]
    · simp at h4
  | @pCheck n T N h => unfold pBranch; split <;> simp [allowance]
  | @cCheck H T N h => unfold cBranch; (repeat' split) <;> simp [allowance]
  | @swing k T y h => cases k <;> simp [onSwung, allowance]
  | @swingFail k T y h => cases k <;> simp [onSwung, allowance]
  | @freeMore k m d ch hp d' h1 =>
    have := (dStep_ver h1).2
    cases k <;> simp [allowance, this]
  | @freeDone k m d ch hp h1 =>
    have := (dStep_ver h1).2
    cases k <;> simp [allowance, this, onFreed]
  | rsv => simp [allowance, Heap.malloc]; omega
  | _ => simp [allowance, eventBudget, Heap.setData]

theorem initial_nalloc (cfg : Cfg) (n : Nat) : (Conf.initial cfg n : Conf α).s.heap.nalloc = n + 1 := by
  obtain ⟨_, _, _, _, e5⟩ := ofHeap_initial (α := α) cfg n
  show (St.ofHeap cfg (Heap.initial (n + 1))).heap.nalloc = n + 1
  rw [e5]
  show (Heap.initial (n + 1) : Heap α).nalloc = n + 1
  simp [Heap.initial, Heap.addNodes_nalloc, Heap.empty]

theorem MSteps.budget {ok} {C₀ : Conf α} (hx : MSteps (mach α cfg) ok C₀ h C) (h0 : ∀ t, C₀.pc t = .idle)
    (T : Nat) : C₀.s.heap.nalloc ≤ C.s.heap.nalloc ∧
    C.s.heap.nalloc + sumTo (fun t => allowance cfg.fixed (C.pc t)) T ≤
      C₀.s.heap.nalloc + totalBudget cfg.fixed h := by
  induction hx generalizing T with
  | refl =>
    have : ∀ T, sumTo (fun t => allowance cfg.fixed (C₀.pc t)) T = 0 := by
      intro T; induction T with
      | zero => rfl
      | succ T ih => rw [sumTo, ih, h0 T]; rfl
    rw [this]; simp
  | @step h C t ch s' p' e hx hs _ ih =>
    have h1 := tstep_allowance hs
    have h2 := (ih (max T (t + 1))).2
    have h3 := (ih 0).1
    have h4 := sumTo_upd (fun t => allowance cfg.fixed (C.pc t)) t (allowance cfg.fixed p')
      (T := max T (t + 1)) (by omega)
    have h5 : (fun x => allowance cfg.fixed (upd C.pc t p' x)) =
        upd (fun t => allowance cfg.fixed (C.pc t)) t (allowance cfg.fixed p') := by
      funext x; simp only [upd_apply]; split <;> rfl
    simp only [h5]
    have h6 := sumTo_mono (upd (fun t => allowance cfg.fixed (C.pc t)) t (allowance cfg.fixed p'))
      (Nat.le_max_left T (t + 1))
    simp only [totalBudget, List.map_append, List.sum_append] at h2 ⊢
    omega

/-- **C39.** The number of nodes ever requested from the allocator (including the initial pool of `n + 1`) never
exceeds the initial pool plus, over the calls made so far, 1 per unbounded push and `k` per `reserve(k)`; it is
never less than `n + 1`. -/
theorem queue_memory_requests (hx : Exec cfg n h C) :
    n + 1 ≤ C.s.heap.nalloc ∧ C.s.heap.nalloc ≤ n + 1 + totalBudget cfg.fixed h := by
  have := MSteps.budget hx (fun _ => rfl) 0
  rw [initial_nalloc] at this
  simpa [sumTo] using this

theorem totalBudget_zero (hb : ∀ t o, Event.inv t o ∈ h → cfg.fixed = true ∨
      (∀ v, o ≠ .push false v) ∧ ∀ k, o ≠ .reserve k) : totalBudget cfg.fixed h = 0 := by
  refine sum_map_zero fun e he => ?_
  cases e with
  | res => rfl
  | inv t o =>
    have := hb t o he
    cases o with
    | push b v => cases b <;> simp_all [eventBudget, Queue.budget]
    | reserve k => simp_all [eventBudget, Queue.budget]
    | _ => rfl

/-- **C19.** If only bounded pushes are made (or the queue is fixed-size) and nothing is reserved, the queue never
requests memory: it lives with its initial `n + 1` nodes. -/
theorem queue_bounded_push_never_allocates (hx : Exec cfg n h C)
    (hb : ∀ t o, Event.inv t o ∈ h → cfg.fixed = true ∨ (∀ v, o ≠ .push false v) ∧ ∀ k, o ≠ .reserve k) :
    C.s.heap.nalloc = n + 1 := by
  have h1 := queue_memory_requests hx
  have h2 := totalBudget_zero hb
  omega

/-- **C39.** A step requests memory only one node at a time, and only in `reserve` or in an unbounded push that
saw the freelist empty at an earlier moment of the same call. -/
theorem queue_request_after_empty {ok} (hx : MSteps (mach α cfg) ok (Conf.initial cfg n) h C) {t ch s' p' e}
    (hs : tstep cfg t C.s (C.pc t) ch = some (s', p', e)) (hne : s'.heap.nalloc ≠ C.s.heap.nalloc) :
    s'.heap.nalloc = C.s.heap.nalloc + 1 ∧
    ((∃ k, C.pc t = .rsv (k + 1)) ∨
      ((∃ v o, C.pc t = .alloc false v (.test o)) ∧ cfg.fixed = false ∧
        ∃ h₁ C₁ h₂, h = h₁ ++ h₂ ∧ MSteps (mach α cfg) ok (Conf.initial cfg n) h₁ C₁ ∧
          MSteps (mach α cfg) ok C₁ h₂ C ∧
          C₁.pc t ≠ .idle ∧ (∀ e ∈ h₂, e.tid ≠ t) ∧ ∀ m, ¬ InFree C₁.s m)) := by
  generalize hp : C.pc t = p at hs
  have key : ∀ {b k a ch hp' r}, p = .alloc b k a → aStep (Op := Op α) cfg b C.s.heap a ch = some (hp', r) →
      hp'.nalloc ≠ C.s.heap.nalloc → hp'.nalloc = C.s.heap.nalloc + 1 ∧
      ((∃ k, p = .rsv (k + 1)) ∨
      ((∃ k o, p = .alloc false k (.test o)) ∧ cfg.fixed = false ∧
        ∃ h₁ C₁ h₂, h = h₁ ++ h₂ ∧ MSteps (mach α cfg) ok (Conf.initial cfg n) h₁ C₁ ∧
          MSteps (mach α cfg) ok C₁ h₂ C ∧
          C₁.pc t ≠ .idle ∧ (∀ e ∈ h₂, e.tid ≠ t) ∧ ∀ m, ¬ InFree C₁.s m)) := by
    intro b k a ch hp' r hpa h1 h2
    rcases aStep_nalloc h1 with h | ⟨h3, h4, _, o, rfl, ho⟩
    · exact absurd h h2
    · simp at h4
      obtain ⟨h4, rfl⟩ := h4
      refine ⟨h3, .inr ⟨⟨k, o, hpa⟩, h4, ?_⟩⟩
      obtain ⟨h₁, C₁, h₂, h5, h6, h7, h8, h9, h10⟩ := hx.origin (lawful cfg) (t := t)
        (fun p => ∃ b k o, p = .alloc b k (.test o) ∧ o.v.ptr = none)
        (fun C => C.s.heap.pool.ptr = none) (by simp [mach]) (by simp [Conf.initial])
        (fun h C ch s' p' e _ hs _ hP => by
          obtain ⟨b, k, o, rfl, ho⟩ := hP
          obtain ⟨h1, rfl, rfl⟩ := tstep_to_test hs
          exact .inr ⟨h1, ho⟩) ⟨_, _, o, hp.trans hpa, ho⟩
      exact ⟨h₁, C₁, h₂, h5, h6, h7, h9, h10, inFree_of_null h8⟩
  cases trans_of_tstep hs with
  | allocMore h | allocGot h | allocNull h | allocBad h => exact key rfl h hne
  | rsv => exact ⟨rfl, .inl ⟨_, rfl⟩⟩
  | freeMore h1 | freeDone h1 => exact absurd (dStep_ver h1).2 hne
  | _ => exact absurd rfl hne

/-! ### C29: capacity -/

theorem nodup_length_le {l : List Nat} {N : Nat} (hn : l.Nodup) (h : ∀ x ∈ l, x < N) : l.length ≤ N := by
  have := (List.subperm_of_subset hn (fun x hx => List.mem_range.2 (h x hx))).length_le
  simpa using this

theorem GInv.length_le {g : G} {c : CState (spec α cfg.fixed)} (hi : GInv cfg C g c) {vs : List α}
    (hv : Holds C.s vs) : g.L.length = vs.length + 1 ∧ vs.length + 1 ≤ C.s.heap.nalloc := by
  have h1 := hv.unique hi.si.holds
  obtain ⟨x, L', h2, _⟩ := hi.si.head_cons
  have h3 := congrArg List.length hi.si.data
  simp [← h1] at h3
  have h4 : g.L.length = vs.length + 1 := by rw [h2] at h3 ⊢; simp at h3 ⊢; exact h3
  refine ⟨h4, ?_⟩
  rw [← h4]
  refine nodup_length_le hi.si.nodup fun m hm => hi.si.heap.lt ?_
  rw [(hi.si.mem m).2 hm]; simp

/-- **C29 (upper bound).** In any concurrent execution, a queue of fixed size `n` never holds more than `n`
elements: one of its `n + 1` nodes is always the dummy. -/
theorem queue_fixed_capacity_bound (hf : cfg.fixed = true) (hx : FreshExec cfg n h C) {vs : List α}
    (hv : Holds C.s vs) : vs.length ≤ n := by
  obtain ⟨g, c, hi, _⟩ := hx.inv
  have h1 := (hi.length_le hv).2
  have h2 := queue_bounded_push_never_allocates hx.exec fun _ _ _ => .inl hf
  omega

/-- A push that runs alone and may not allocate succeeds iff not all nodes but the dummy are in use. -/
theorem queue_push_solo_iff (hx : MSteps (mach α cfg) (okClean cfg) (Conf.initial cfg n) h C)
    (hq : ∀ t, C.pc t = .idle) {vs : List α} (hv : Holds C.s vs) {t : Nat} {b : Bool} {v : α} {ok : Bool}
    {C' : Conf α} (hb : (cfg.fixed || b) = true)
    (hs : MSteps (mach α cfg) (okClean cfg) C [.inv t (.push b v), .res t (.pushed ok)] C') :
    (ok = true ↔ vs.length + 1 < C.s.heap.nalloc) ∧ C'.s.heap.nalloc = C.s.heap.nalloc := by
  obtain ⟨c, ⟨g, hi, hnl⟩, _⟩ := clean_inv hx
  have hst : c.st = vs := hi.si.holds.unique hv
  have hidle : ∀ t, c.status t = .idle := fun t => (hi.idle_iff t).1 (hq t)
  have hna : C'.s.heap.nalloc = C.s.heap.nalloc := by
    have := MSteps.budget hs hq 0
    have h0 : totalBudget cfg.fixed [Event.inv t (.push b v), .res t (.pushed ok)] = 0 := by
      simp only [totalBudget, eventBudget, budget, hb, List.map_cons, List.map_nil]; rfl
    omega
  refine ⟨?_, hna⟩
  cases ok with
  | true =>
    simp only [true_iff]
    obtain ⟨c', ⟨g', hi', _⟩, h1, h2⟩ := MSteps.solo (queue_sim_clean cfg) (c := c) ⟨g, hi, hnl⟩ hidle hs
      (List.prefix_refl _)
    rcases h2 with ⟨h2, _⟩ | ⟨h2, _⟩ | ⟨r', h2, h3, h4⟩
    · simp at h2
    · simp at h2
    · simp at h2
      subst h2
      have h5 : c'.st = vs ++ [v] := by
        rw [hst] at h4
        simpa [spec, specStep] using h4
      have h6 : Holds C'.s (vs ++ [v]) := by rw [← h5]; exact hi'.si.holds
      have := (hi'.length_le h6).2
      simp at this
      omega
  | false =>
    simp only [Bool.false_eq_true, false_iff]
    obtain ⟨t', o, k, C₁, h0, h1, h2, h3, h4, h5, b', v', o', h6⟩ :=
      push_false_moment hs hq (i := 0) (j := 1)
        ⟨t, .push b v, by simp, by omega, by simp, fun k e h1 h2 => by omega⟩
    have hk : k = 1 := by omega
    subst hk
    simp at h0
    obtain ⟨rfl, rfl⟩ := h0
    obtain ⟨c₁, ⟨g₁, hi₁, hnl₁⟩, h7, h8⟩ := MSteps.solo (queue_sim_clean cfg) (c := c) ⟨g, hi, hnl⟩ hidle h3
      (List.take_prefix _ _)
    have hst₁ : c₁.st = vs := by
      have hl := hi₁.loc t
      rw [h6] at hl
      obtain ⟨_, ⟨P, hP⟩, _⟩ := hl
      rcases h8 with ⟨h8, _⟩ | ⟨_, ⟨Q, h9, h10, _⟩ | ⟨r, h9, _⟩⟩ | ⟨r, h8, _⟩
      · simp at h8
      · exact h10.trans hst
      · rw [hP] at h9; simp at h9
      · simp at h8
    have hall : ∀ m < C₁.s.heap.nalloc, m ∈ g₁.L := by
      intro m hm
      rw [← hi₁.si.mem]
      have hraw := hi₁.si.heap.raw m
      have hfree := hi₁.inFree m
      have hh := hi₁.heldBy
      cases ho : g₁.own m with
      | raw => simp [ho] at hraw; omega
      | free => exact absurd (hfree.2 ho) (inFree_of_null h5 m)
      | str => rfl
      | lost => exact absurd ho (hnl₁ m)
      | thr t'' =>
        have h9 := (hh t'' m).2 ho
        by_cases ht : t'' = t
        · subst ht; rw [h6] at h9; exact h9.elim
        · rw [(hi₁.idle_iff t'').2 (h7 t'' ht)] at h9; exact h9.elim
    have h9 := (List.subperm_of_subset List.nodup_range
      (fun m hm => hall m (List.mem_range.1 hm))).length_le
    have h10 : Holds C₁.s vs := by rw [← hst₁]; exact hi₁.si.holds
    have h11 := (hi₁.length_le h10).1
    have h12 := (MSteps.budget h3 hq 0).1
    simp at h9
    omega

/-- **C29.** A queue of fixed size `n` (or `capacity<n>`) used by one thread at a time accepts exactly `n`
elements: from any configuration with no call in progress (reached by any concurrent use without throwing copy
constructors) a push that runs alone fails iff `n` elements are queued. -/
theorem queue_fixed_capacity_exact (hf : cfg.fixed = true)
    (hx : MSteps (mach α cfg) (okClean cfg) (Conf.initial cfg n) h C)
    (hq : ∀ t, C.pc t = .idle) {vs : List α} (hv : Holds C.s vs) {t : Nat} {b : Bool} {v : α} {ok : Bool}
    {C' : Conf α}
    (hs : MSteps (mach α cfg) (okClean cfg) C [.inv t (.push b v), .res t (.pushed ok)] C') :
    ok = false ↔ vs.length = n := by
  have h1 := (queue_push_solo_iff hx hq hv (by simp [hf]) hs).1
  have hx' : FreshExec cfg n h C := hx.mono fun _ _ _ h => h.1
  have h2 := queue_fixed_capacity_bound hf hx' hv
  have h3 := queue_bounded_push_never_allocates hx'.exec fun _ _ _ => .inl hf
  rw [h3] at h1
  cases ok
  · simp at h1 ⊢; omega
  · simp at h1 ⊢; omega

end Verif.Queue
