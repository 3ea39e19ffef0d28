import Verif.Stack.TextUnsync

/-!
# The program text of the unsynchronized member functions of the stack: what follows (C58)

No further code of /repo is modelled here.
-/

namespace Verif.Stack.Code
open Lin Text

variable {α : Type} {R : Rep} {n k t : Nat} {h h' : History (Op α) (Ret α)} {C : TConf R α}

/-- Program counters of the program text. -/
abbrev TextPC (R : Rep) (α : Type) := TPC (SSt R.K α) (Loc R.K α) (SChoice R.K (Op α) α) (Ret α)

/-- Thread `t` executes unsynchronized functions, alone, from shared state `s` and place `q`, in `k` steps. -/
abbrev UnsyncRun (R : Rep) (t k : Nat) (s : SSt R.K α) (q : TextPC R α) (h : History (Op α) (Ret α)) (s' : SSt R.K α) (q' : TextPC R α) : Prop :=
  Alone (unsyncProgram R α).mach (Program.ok fun _ o => ∀ b, o ≠ .pushRange b []) t k s q h s' q'

/-- Executions of a stack constructed with `n` nodes, in which the thread-safe functions are called by any number of threads, and, while no call
is in progress, unsynchronized functions by one thread. -/
inductive MixedText (R : Rep) (n : Nat) : History (Op α) (Ret α) → TConf R α → Prop where
  | start : MixedText R n [] ⟨(SConf.initial R n).s, fun _ => .idle⟩
  | step {h C t ch s' q' e} : MixedText R n h C → (program R α).mach.step t C.s (C.pc t) ch = some (s', q', e) →
      Program.ok (fun _ o => ∀ b, o ≠ .pushRange b []) C.s (C.pc t) ch → MixedText R n (h ++ e.toList) ⟨s', upd C.pc t q'⟩
  | unsync {h C t k h' s'} : MixedText R n h C → (∀ u, C.pc u = .idle) → UnsyncRun R t k C.s .idle h' s' .idle →
      MixedText R n (h ++ h') ⟨s', C.pc⟩

/-- An execution of the thread-safe functions only. -/
theorem MixedText.of_text (hx : TextExec R n h C) : MixedText R n h C := by
  induction hx with
  | refl => exact .start
  | step _ hs hok ih => exact ih.step hs hok

theorem NowU.alone {s s' : SSt R.K α} {p p'} (h0 : NowU R s p) (hx : Alone (smach α R) (okU R) t k s p h s' p') : NowU R s' p' := by
  induction hx with
  | nil => exact h0
  | cons hs hok _ ih => exact ih (h0.step hok hs)

theorem invU (hf : R.Faithful) (hn : n ≤ R.limit) {D : SConf R.K α} (hx : WordExec R n h D) (hq : D.pc t = .idle) {s' p'}
    (hu : Alone (smach α R) (okU R) t k D.s .idle h' s' p') : InvU R s' p' := by
  have h1 : NowU R s' p' := NowU.alone (p := .idle) trivial hu
  refine ⟨h1, ?_⟩
  rintro thr o nx rfl
  have h2 : WordExec R n (h ++ h') ⟨s', upd D.pc t (.pcas thr o nx)⟩ := hx.trans ((hu.mono fun _ _ _ h => h.1).steps rfl hq)
  obtain ⟨C, -, hr⟩ := stack_words_simulated hf hn h2
  have h3 := hr.pc t
  have h4 := hr.st
  simp only [upd_self] at h3 h4
  generalize C.pc t = p at h3
  cases h3 with
  | pcas _ ho hx =>
    rcases hx with ⟨h5, rfl⟩ | h5
    · rw [hf.words.node_hnd _ (okPtr.mono h4.mem.limit h5)]
    · have h6 : s'.tosVer = o.ver := congrArg SSnap.ver h1
      have := h4.tosVer
      have := ho.ver
      omega

/-- What `MixedText` executions are on words. -/
theorem stack_mixed_refines (hf : R.Faithful) (hn : n ≤ R.limit) (hx : MixedText R n h C) :
    ∃ D : SConf R.K α, WordExec R n h D ∧ D.s = C.s ∧ ∀ t, ∃ n, Text.PCRel (smach α R) .err At n (C.pc t) (D.pc t) := by
  induction hx with
  | start => exact ⟨_, .refl _, rfl, fun t => ⟨0, rfl⟩⟩
  | @step h C t ch s' q' e _ hs hok ih =>
    obtain ⟨D, h1, h2, h3⟩ := ih
    obtain ⟨D₁, h4, h5, h6⟩ := (refines hf).extend (D₀ := D) (C₀ := C) (fun h' D' hx' t => text_inv hf hn (h1.trans hx') t) h2 h3
      (.step (.refl _) hs hok)
    exact ⟨D₁, by simpa using h1.trans h4, h5, h6⟩
  | @unsync h C t k h' s' _ hq hu ih =>
    obtain ⟨D, h1, h2, h3⟩ := ih
    have h4 : ∀ u, D.pc u = .idle := fun u => by
      obtain ⟨_, h⟩ := h3 u
      rw [hq u] at h
      exact h
    rw [← h2] at hu
    obtain ⟨k', p', n', h5, h6, -⟩ := (refinesU hf).toAlone.alone (fun k h s p hx => invU hf hn h1 (h4 t) hx) (n₀ := 0) (q₀ := .idle) rfl hu
    cases (show p' = .idle from h6)
    refine ⟨⟨s', upd D.pc t .idle⟩, h1.trans ((h5.mono fun _ _ _ h => h.1).steps rfl (h4 t)), rfl, fun u => ⟨0, ?_⟩⟩
    rw [upd_same (h4 t), h4 u, hq u]
    rfl

/-- The shared state and the history while unsynchronized functions are executed. -/
theorem stack_unsync_refines (hf : R.Faithful) (hn : n ≤ R.limit) (hx : MixedText R n h C) (hq : ∀ u, C.pc u = .idle) {s' q'}
    (hu : UnsyncRun R t k C.s .idle h' s' q') :
    ∃ D : SConf R.K α, WordExec R n h D ∧ D.s = C.s ∧ (∀ u, D.pc u = .idle) ∧ ∃ k' p' i, Alone (smach α R) (okU R) t k' D.s .idle h' s' p' ∧
      Text.PCRel (smach α R) .err AtU i q' p' ∧ k + i ≤ 62 * k' := by
  obtain ⟨D, h1, h2, h3⟩ := stack_mixed_refines hf hn hx
  have h4 : ∀ u, D.pc u = .idle := fun u => by
    obtain ⟨_, h⟩ := h3 u
    rw [hq u] at h
    exact h
  rw [← h2] at hu
  obtain ⟨k', p', i, h5, h6, h7⟩ := (refinesU hf).toAlone.alone (fun k h s p hx => invU hf hn h1 (h4 t) hx) (n₀ := 0) (q₀ := .idle) rfl hu
  exact ⟨D, h1, h2, h4, k', p', i, h5, h6, by omega⟩

theorem wordExec_alone {D : SConf R.K α} (hx : WordExec R n h D) (hq : D.pc t = .idle) {s' p'}
    (hu : Alone (smach α R) (okU R) t k D.s .idle h' s' p') : WordExec R n (h ++ h') ⟨s', upd D.pc t p'⟩ :=
  hx.trans ((hu.mono fun _ _ _ h => h.1).steps rfl hq)

/-- **C58 (stack).** Executions in which thread-safe and unsynchronized functions are mixed, as the documentation allows, are linearizable with respect to the
same sequential specification; also while an unsynchronized function is executed. -/
theorem stack_unsync_text_linearizable (hf : R.Faithful) (hn : n ≤ R.limit) (hx : MixedText R n h C) :
    Linearizable (spec α R.fixed) h ∧
      ∀ t k h' s' q', (∀ u, C.pc u = .idle) → UnsyncRun R t k C.s .idle h' s' q' → Linearizable (spec α R.fixed) (h ++ h') := by
  refine ⟨?_, fun t k h' s' q' hq hu => ?_⟩
  · obtain ⟨D, hx, -⟩ := stack_mixed_refines hf hn hx
    exact stack_words_linearizable hf hn hx
  · obtain ⟨D, h1, -, h2, k', p', i, h3, -⟩ := stack_unsync_refines hf hn hx hq hu
    exact stack_words_linearizable hf hn (wordExec_alone h1 (h2 t) h3)

/-- **C58 (stack: no undefined behaviour).** -/
theorem stack_unsync_text_no_undefined_behaviour (hf : R.Faithful) (hn : n ≤ R.limit) (hx : MixedText R n h C) :
    (∀ t, C.pc t ≠ .err) ∧ ∀ t k h' s' q', (∀ u, C.pc u = .idle) → UnsyncRun R t k C.s .idle h' s' q' → q' ≠ .err := by
  refine ⟨fun t he => ?_, ?_⟩
  · obtain ⟨D, hx, -, hp⟩ := stack_mixed_refines hf hn hx
    obtain ⟨_, h1⟩ := hp t
    rw [he] at h1
    exact stack_words_no_undefined_behaviour hf hn hx t h1
  · rintro t k h' s' q' hq hu rfl
    obtain ⟨D, h1, -, h2, k', p', i, h3, h4, -⟩ := stack_unsync_refines hf hn hx hq hu
    have := stack_words_no_undefined_behaviour hf hn (wordExec_alone h1 (h2 t) h3) t
    simp only [upd_self] at this
    exact this h4

/-- **C58 (stack: conservation).** -/
theorem stack_unsync_text_conservation (hf : R.Faithful) (hn : n ≤ R.limit) (hx : MixedText R n h C) (hq : ∀ t, C.pc t = .idle)
    (hno : ∀ t rev k, Event.inv t (.consumeAll rev (some k)) ∉ h) :
    ∃ vs, HoldsW R C.s vs ∧ (delivered h ++ vs).Perm (accepted h) := by
  obtain ⟨D, hx, hs, hp⟩ := stack_mixed_refines hf hn hx
  rw [← hs]
  refine stack_words_conservation hf hn hx (fun t => ?_) hno
  obtain ⟨_, h1⟩ := hp t
  rw [hq t] at h1
  exact h1

/-- **C58 (stack: the same effects).** To every execution with unsynchronized functions there is one in which only the thread-safe functions are called, with the
same history and the same shared state at its end. -/
theorem stack_unsync_text_same (hf : R.Faithful) (hn : n ≤ R.limit) (hx : MixedText R n h C) :
    ∃ C' : TConf R α, TextExec R n h C' ∧ C'.s = C.s := by
  obtain ⟨D, h1, h2, -⟩ := stack_mixed_refines hf hn hx
  exact (stack_text_same hf hn).2 ⟨D, h1, h2⟩

/-! ### Progress -/

theorem own_words (hf : R.Faithful) {D : SConf R.K α} {D' : Conf α} (hx : FreshExec R.cfg n h D') (hr : ConfRel R D' D)
    (hw : NowU R D.s (D.pc t)) {s' p'} (hu : Alone (smach α R) (okU R) t k D.s (D.pc t) h' s' p') :
    k ≤ cost 0 8 D'.s (D'.pc t) + callCosts (opCost 0 8) h' := by
  generalize hs₀ : D.s = s₀ at hu
  generalize hp₀ : D.pc t = p₀ at hu
  induction hu generalizing D D' h with
  | nil => omega
  | @cons k s p ch s₁ p₁ e h₁ s'' p'' hs hok _ ih =>
    subst hs₀ hp₀
    obtain ⟨s₂, p₂, h1, h2, h3⟩ := conf_step hf hr hs hok.1
    obtain ⟨g, c, hi, _⟩ := hx.inv
    have h4 := own_cost (W := 0) (K := 8) (Nat.le_refl _) hi.si (hi.loc t) h2.1 (trans_of_tstep h1)
      (by intro h; cases ch <;> simp [SChoice.base] at h; exact hok.2.1 rfl)
    have h5 := ih (hx.step h1 h2) h3 (by simp only [upd_self]; exact hw.step hok hs) rfl (by simp)
    simp only [upd_self] at h5
    rw [callCosts_append]
    rcases h4 with h4 | ⟨⟨rev, thr, o, h4⟩, -⟩
    · unfold Pays at h4
      omega
    · have h6 := hr.pc t
      rw [h4] at h6
      generalize D.pc t = p at h6 hw
      cases h6
      exact hw.elim

/-- **C58 (stack: bounded).** Every execution of unsynchronized functions by a thread alone has at most this number of steps, statements included:
`unsynchronized_push` of one element makes `62 * 17`, of a range `62 * (5 + 13 * length)`, `unsynchronized_pop` `62 * 10`, `reserve_unsafe( c )` `62 * (3 + 4 * c)`. -/
theorem stack_unsync_text_bounded (hf : R.Faithful) (hn : n ≤ R.limit) (hx : MixedText R n h C) (hq : ∀ u, C.pc u = .idle) {s' q'}
    (hu : UnsyncRun R t k C.s .idle h' s' q') : k ≤ 62 * callCosts (opCost 0 8) h' := by
  obtain ⟨D, h1, -, h2, k', p', i, h3, -, h4⟩ := stack_unsync_refines hf hn hx hq hu
  obtain ⟨D', h5, h6⟩ := stack_words_simulated hf hn h1
  rw [← h2 t] at h3
  have h7 := own_words hf h5 h6 (by rw [h2 t]; trivial) h3
  have h8 : D'.pc t = .idle := by
    have := h6.pc t
    rw [h2 t] at this
    generalize D'.pc t = p at this
    cases this
    rfl
  rw [h8] at h7
  simp only [cost] at h7
  have : 62 * k' ≤ 62 * callCosts (opCost 0 8) h' := Nat.mul_le_mul_left _ (by omega)
  omega

theorem AtU.enabled {l : Loc R.K α} {a k p} (h : AtU l (.stm (.acc a) :: k) p) {s : SSt R.K α}
    (hroom : R.fixed = true ∨ s.mem.nalloc < R.limit) (hI : TextInv R s p) : ∃ y, a.run t s l .go = some y := by
  generalize hk : Item.stm (.acc a) :: k = K at h
  cases h with
  | alloc _ h => subst hk; exact h.enabled hroom
  | free _ h => subst hk; exact h.enabled
  | fin => simp at hk
  | rsv =>
    cases hk
    have h1 : s.mem.nalloc < R.limit := hroom.resolve_left fun h1 => by rw [show R.fixed = false from hI] at h1; cases h1
    simp [Port.osAllocate, Port.acc, port, h1]
  | constr hc hn => cases hk; exact Port.ctor_enabled hn hc.arg s
  | pdestroy | undoD => cases hk; exact Port.dtor_enabled (P := port R α) (by assumption) s
  | lload | pload => cases hk; exact ⟨_, rfl⟩
  | lcas | pcas => cases hk; exact ⟨_, rfl⟩
  | _ =>
    cases hk
    simp only [readNext, setNext, apply, *]
    repeat' split
    all_goals exact ⟨_, rfl⟩

/-- **C58 (stack: never stuck).** A thread that executes unsynchronized functions alone can make a step, as long as the allocator has memory. -/
theorem stack_unsync_text_enabled (hf : R.Faithful) (hn : n ≤ R.limit) (hx : MixedText R n h C) (hq : ∀ u, C.pc u = .idle) {s' q'}
    (hu : UnsyncRun R t k C.s .idle h' s' q') (ht : q' ≠ .idle) (hroom : R.fixed = true ∨ s'.mem.nalloc < R.limit) :
    ∃ ch y, (ch = .tau ∨ ch = .act .go) ∧ (unsyncProgram R α).mach.step t s' q' ch = some y := by
  have he := (stack_unsync_text_no_undefined_behaviour hf hn hx).2 t k h' s' q' hq hu
  obtain ⟨D, h1, -, h2, k', p', i, h3, h4, -⟩ := stack_unsync_refines hf hn hx hq hu
  have h5 := text_inv hf hn (wordExec_alone h1 (h2 t) h3) t
  simp only [upd_self] at h5
  cases q' with
  | idle => exact (ht rfl).elim
  | err => exact (he rfl).elim
  | ret r => exact ⟨.tau, _, .inl rfl, rfl⟩
  | run l k =>
    obtain ⟨_, -, h1⟩ := h4
    cases hc : ctl l k with
    | some x =>
      refine ⟨.tau, (s', .run x.1 x.2, none), .inl rfl, ?_⟩
      cases k with
      | nil => simp [ctl] at hc
      | cons => simp [Program.mach, hc]
    | none =>
      have h3 := Leads.stuck h1 hc
      match k, hc with
      | [], _ => exact ⟨.tau, _, .inl rfl, rfl⟩
      | .stm (.acc a) :: k, _ =>
        obtain ⟨⟨s', l', f⟩, h4⟩ := h3.enabled (t := t) hroom h5
        cases f <;> exact ⟨.act .go, _, .inr rfl, by simp only [Program.mach, h4]; rfl⟩

/-- **C58 (stack: output).** At the end of `unsynchronized_pop`: if it returns false, the output argument was not written; if it takes an element, the element
was copied, once. -/
theorem stack_unsync_text_output (hf : R.Faithful) (hn : n ≤ R.limit) (hx : MixedText R n h C) (hq : ∀ u, C.pc u = .idle) {s' l}
    (hu : UnsyncRun R t k C.s .idle h' s' (.run l [])) {x} (hr : l.result = .popped x) : l.applied = x.toList := by
  obtain ⟨D, h1, -, h2, k', p', i, h3, h4, -⟩ := stack_unsync_refines hf hn hx hq hu
  obtain ⟨_, _, h4⟩ := h4
  have h5 : AtU l [] p' := Leads.stuck h4 rfl
  generalize hk : ([] : LRest R α) = k at h5
  have ho : Output l := by
    cases h5 with
    | fin _ ho => exact ho
    | alloc _ h => exact (h.ne hk.symm).elim
    | free _ h => exact (h.ne hk.symm).elim
    | _ => cases hk
  unfold Output at ho
  simpa [hr] using ho

end Verif.Stack.Code
