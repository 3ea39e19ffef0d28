import Verif.Freelist.Unsync
import Verif.SequentialUse

/-!
# The functions of the freelists that are not thread-safe: properties (C73)

No further code of /repo is modelled here.
-/

namespace Verif.Freelist
open Lin Text

variable {α : Type} {R : Rep} {n k t : Nat} {h h' : History (Op α) Ret} {C : TConf R α}

/-- An execution of the thread-safe functions only. -/
theorem MixedExec.of_exec (hx : Exec R n h C) : MixedExec R n h C := by
  induction hx with
  | refl => exact .start
  | step _ hs hok ih => exact ih.step hs hok

/-! ### Whatever the machine does, the thread-safe functions can do -/

theorem At.complete {l : Loc R.K α} {a k p} (h : At l (.stm (.acc a) :: k) p) {s : SMem R.K α} {ch y} (hok : okFresh R s p ch)
    (hs : step R t s p ch = some y) : a.ok s l ch = true ∧ ∃ z, a.run t s l ch = some z := by
  generalize hk : Item.stm (.acc a) :: k = K at h
  cases h with
  | @alloc _ b v thr a' _ _ h =>
    subst hk
    cases hx : saStep R b s a' ch with
    | none => simp only [step] at hs; rw [hx] at hs; cases hs
    | some x => exact h.complete (s := s) hok hx
  | @free _ n d h =>
    subst hk
    cases hx : sdStep R s n d ch with
    | none => simp only [step] at hs; rw [hx] at hs; cases hs
    | some x => exact h.complete (s := s) hx
  | constr hv ht hn =>
    cases hk
    refine ⟨rfl, ?_⟩
    cases ch <;> simp [step] at hs
    simp only [ctor, hv, hn]
    repeat' split
    all_goals exact ⟨_, rfl⟩
  | destroy hn =>
    cases hk
    refine ⟨rfl, ?_⟩
    cases ch <;> simp [step] at hs
    exact Port.dtor_enabled (P := port R α) hn s
  | fin => simp at hk

theorem complete : Complete (program R α) (smach α R) (fun _ _ => True) (okFresh R) isSpur .err (fun _ _ _ => True) At 40 where
  call t s ch s' p e _ _ hs := by
    cases ch with
    | call o =>
      have hb : ∃ x, (program R α).body t o = some x := by cases o <;> exact ⟨_, rfl⟩
      obtain ⟨⟨l, a⟩, hb⟩ := hb
      obtain ⟨ch, p', -, h1, h2, h3⟩ := refines.call t s o l a hb trivial
      have hch : ch = .call o := by
        cases ch with
        | call o' =>
          cases o <;> cases o' <;> simp [smach, step] at h2 <;> simp [h2]
        | _ => simp [smach, step] at h2
      rw [hch, hs] at h2
      cases h2
      exact ⟨o, l, a, hb, trivial, rfl, rfl, h3⟩
    | _ => simp [smach, step] at hs
  access t s l a k p ch y _ h _ hok hs := h.complete hok hs
  res t s r ch y _ hs := by cases ch <;> simp [smach, step] at hs; exact hs.symm
  err t s ch _ := by cases ch <;> rfl

/-! ### Mixed executions -/

/-- What mixed executions are on the machine. -/
theorem mixed_refines (hf : R.Faithful) (hx : MixedExec R n h C) :
    ∃ D : MConf (SMem R.K α) (PC R.K α), MSteps (smach α R) (okFresh R) ⟨SMem.initial R n, fun _ => .idle⟩ h D ∧ D.s = C.s ∧
      ∀ t, ∃ k, PCRel (smach α R) .err At k (C.pc t) (D.pc t) := by
  induction hx with
  | start => exact ⟨_, .refl _, rfl, fun t => ⟨0, rfl⟩⟩
  | @step h C t ch s' q' e _ hs hok ih =>
    obtain ⟨D, h1, h2, h3⟩ := ih
    obtain ⟨D₁, h4, h5, h6⟩ := refines.extend (D₀ := D) (C₀ := C) (fun _ _ _ _ => trivial) h2 h3 (.step (.refl _) hs hok)
    exact ⟨D₁, by simpa using h1.trans h4, h5, h6⟩
  | @unsync h C t k h' s' _ hq hu ih =>
    obtain ⟨D, h1, h2, h3⟩ := ih
    have h4 : ∀ u, D.pc u = .idle := fun u => by
      obtain ⟨_, h⟩ := h3 u
      rw [hq u] at h
      exact h
    rw [← h2] at hu
    obtain ⟨k', p', n', h5, h6, -⟩ := (refinesU hf).toAlone.alone (fun k h s p hx => NowU.alone (p := .idle) trivial hx) (n₀ := 0) (q₀ := .idle) rfl hu
    cases (show p' = .idle from h6)
    refine ⟨⟨s', upd D.pc t .idle⟩, h1.trans ((h5.mono fun _ _ _ h => h.1).steps rfl (h4 t)), rfl, fun u => ⟨0, ?_⟩⟩
    rw [upd_same (h4 t), h4 u, hq u]
    rfl

/-- In the middle of a function that is not thread-safe. -/
theorem unsync_refines (hf : R.Faithful) (hx : MixedExec R n h C) (hq : ∀ u, C.pc u = .idle) {s' q'} (hu : UnsyncRun R t k C.s .idle h' s' q') :
    ∃ (D : MConf (SMem R.K α) (PC R.K α)) (k' : Nat) (p' : PC R.K α) (i : Nat),
      MSteps (smach α R) (okFresh R) ⟨SMem.initial R n, fun _ => .idle⟩ (h ++ h') ⟨s', upd D.pc t p'⟩ ∧
      Alone (smach α R) (okU R) t k' C.s .idle h' s' p' ∧ PCRel (smach α R) .err AtU i q' p' ∧ k + i ≤ 42 * k' := by
  obtain ⟨D, h1, h2, h3⟩ := mixed_refines hf hx
  have h4 : D.pc t = .idle := by
    obtain ⟨_, h⟩ := h3 t
    rw [hq t] at h
    exact h
  obtain ⟨k', p', i, h5, h6, h7⟩ := (refinesU hf).toAlone.alone (fun k h s p hx => NowU.alone (p := .idle) trivial hx) (n₀ := 0) (q₀ := .idle) rfl hu
  exact ⟨D, k', p', i, h1.trans ((h5.mono fun _ _ _ h => h.1).steps h2 h4), h5, h6, by omega⟩

/-- **C73 (the same effects).** To every execution with functions that are not thread-safe there is one of the thread-safe functions alone, with the same
history and the same memory; also in the middle of a function that is not thread-safe. -/
theorem freelist_unsync_same (hf : R.Faithful) (hx : MixedExec R n h C) :
    (∃ C' : TConf R α, Exec R n h C' ∧ C'.s = C.s) ∧
      ∀ t k h' s' q', (∀ u, C.pc u = .idle) → UnsyncRun R t k C.s .idle h' s' q' → ∃ C' : TConf R α, Exec R n (h ++ h') C' ∧ C'.s = s' := by
  refine ⟨?_, fun t k h' s' q' hq hu => ?_⟩
  · obtain ⟨D, h1, h2, -⟩ := mixed_refines hf hx
    obtain ⟨C', h3, h4, -⟩ := refines.complete complete (fun _ _ _ _ => trivial) h1
    exact ⟨C', h3, h4.trans h2⟩
  · obtain ⟨D, k', p', i, h1, -⟩ := unsync_refines hf hx hq hu
    obtain ⟨C', h3, h4, -⟩ := refines.complete complete (fun _ _ _ _ => trivial) h1
    exact ⟨C', h3, h4⟩

/-- **C73 (linearizability).** -/
theorem freelist_unsync_linearizable (hf : R.Faithful) (hn : n ≤ R.limit) (hx : MixedExec R n h C) :
    (Disciplined h → Linearizable (spec α R.fixed n) h) ∧
      ∀ t k h' s' q', (∀ u, C.pc u = .idle) → UnsyncRun R t k C.s .idle h' s' q' → Disciplined (h ++ h') → Linearizable (spec α R.fixed n) (h ++ h') := by
  refine ⟨fun hd => ?_, fun t k h' s' q' hq hu hd => ?_⟩
  · obtain ⟨C', h1, -⟩ := (freelist_unsync_same hf hx).1
    exact freelist_linearizable hf hn h1 hd
  · obtain ⟨C', h1, -⟩ := (freelist_unsync_same hf hx).2 t k h' s' q' hq hu
    exact freelist_linearizable hf hn h1 hd

/-- **C73 (no undefined behaviour).** -/
theorem freelist_unsync_no_undefined_behaviour (hf : R.Faithful) (hn : n ≤ R.limit) (hx : MixedExec R n h C) :
    (Disciplined h → ∀ t, C.pc t ≠ .err) ∧
      ∀ t k h' s' q', (∀ u, C.pc u = .idle) → UnsyncRun R t k C.s .idle h' s' q' → Disciplined (h ++ h') → q' ≠ .err := by
  refine ⟨fun hd t he => ?_, ?_⟩
  · obtain ⟨D, h1, -, hp⟩ := mixed_refines hf hx
    obtain ⟨c, -, _, _, _, _, -, ht⟩ := ginv hf hn h1 hd
    obtain ⟨_, h2⟩ := hp t
    rw [he] at h2
    have h3 := ht t
    rw [show D.pc t = .err from h2] at h3
    exact h3
  · rintro t k h' s' q' hq hu hd rfl
    obtain ⟨D, k', p', i, h1, -, h2, -⟩ := unsync_refines hf hx hq hu
    obtain ⟨c, -, _, _, _, _, -, ht⟩ := ginv hf hn h1 hd
    have h3 := ht t
    rw [show p' = .err from h2] at h3
    simp only [upd_self] at h3
    exact h3

/-- **C73 (exclusive).** `construct` returns no node that the users have already. -/
theorem freelist_unsync_exclusive (hf : R.Faithful) (hn : n ≤ R.limit) (hx : MixedExec R n h C) (hd : Disciplined h) {h₁ h₂ : History (Op α) Ret} {t k : Nat}
    (he : h = h₁ ++ .res t (.node (some k)) :: h₂) : k ∉ owned h₁ := by
  obtain ⟨C', h1, -⟩ := (freelist_unsync_same hf hx).1
  exact freelist_exclusive hf hn h1 hd he

/-- **C73 (values).** Every node the users have holds the object that was constructed in it. -/
theorem freelist_unsync_value (hf : R.Faithful) (hn : n ≤ R.limit) (hx : MixedExec R n h C) (hd : Disciplined h) {k : Nat} {v : α} (hm : Made h k v) :
    C.s.data k = some v := by
  obtain ⟨C', h1, h2⟩ := (freelist_unsync_same hf hx).1
  rw [← h2]
  exact freelist_value hf hn h1 hd hm

/-- **C73 (conservation).** When no call is in progress and no constructor has thrown, every node is either in the list of free nodes or at a user, once. -/
theorem freelist_unsync_conservation (hf : R.Faithful) (hn : n ≤ R.limit) (hx : MixedExec R n h C) (hd : Disciplined h) (hq : ∀ t, C.pc t = .idle)
    (hno : ∀ t b v, Event.inv t (.construct b v true) ∉ h) :
    ∃ F, Linked R C.s (R.K.ptr C.s.pool) F ∧ (F ++ owned h).Perm (List.range C.s.nalloc) := by
  obtain ⟨D, h1, h2, hp⟩ := mixed_refines hf hx
  rw [← h2]
  refine conserved hf hn h1 hd (fun t => ?_) hno
  obtain ⟨_, h3⟩ := hp t
  rw [hq t] at h3
  exact h3

/-! ### Progress -/

theorem own_steps {s s' : SMem R.K α} {p p' : PC R.K α} (hu : Alone (smach α R) (okU R) t k s p h s' p') :
    k + cost 0 s' p' ≤ cost 0 s p + callCosts (fun _ => 6) h := by
  induction hu with
  | nil => simp [callCosts]
  | @cons k s p ch s₁ p₁ e h₁ s'' p'' hs hok _ ih =>
    have h1 := (cost_own (W := 0) hs).1 hok.2
    rw [callCosts_append]
    simp only [Nat.zero_add] at h1
    split at h1 <;> omega

/-- **C73 (bounded).** A thread that executes these functions alone makes at most `42 * 6` steps for each call, statements included. -/
theorem freelist_unsync_bounded (hf : R.Faithful) (hx : MixedExec R n h C) (hq : ∀ u, C.pc u = .idle) {s' q'}
    (hu : UnsyncRun R t k C.s .idle h' s' q') : k ≤ 42 * callCosts (fun _ => 6) h' := by
  obtain ⟨D, k', p', i, -, h1, -, h2⟩ := unsync_refines hf hx hq hu
  have h3 := own_steps h1
  simp only [cost] at h3
  have : 42 * k' ≤ 42 * callCosts (fun _ => 6) h' := Nat.mul_le_mul_left _ (by omega)
  omega

theorem AtU.enabled {l : Loc R.K α} {a k p} (h : AtU l (.stm (.acc a) :: k) p) {t : Nat} {s : SMem R.K α}
    (hroom : R.fixed = true ∨ s.nalloc < R.limit) : ∃ y, a.run t s l .go = some y := by
  generalize hk : Item.stm (.acc a) :: k = K at h
  cases h with
  | alloc _ _ h => subst hk; exact h.enabled hroom
  | free h => subst hk; exact h.enabled
  | constr hv _ hn =>
    cases hk
    simp only [ctor, hv, hn]
    repeat' split
    all_goals exact ⟨_, rfl⟩
  | destroy hn => cases hk; exact Port.dtor_enabled (P := port R α) hn s
  | fin => simp at hk

/-- **C73 (never stuck).** A thread that executes these functions alone can make a step, as long as the allocator has memory. -/
theorem freelist_unsync_enabled (hf : R.Faithful) (hn : n ≤ R.limit) (hx : MixedExec R n h C) (hq : ∀ u, C.pc u = .idle) {s' q'}
    (hu : UnsyncRun R t k C.s .idle h' s' q') (hd : Disciplined (h ++ h')) (ht : q' ≠ .idle) (hroom : R.fixed = true ∨ s'.nalloc < R.limit) :
    ∃ ch y, (ch = .tau ∨ ch = .act .go) ∧ (unsyncProgram R α).mach.step t s' q' ch = some y := by
  have he := (freelist_unsync_no_undefined_behaviour hf hn hx).2 t k h' s' q' hq hu hd
  obtain ⟨D, k', p', i, -, -, h4, -⟩ := unsync_refines hf hx hq hu
  cases q' with
  | idle => exact (ht rfl).elim
  | err => exact (he rfl).elim
  | ret r => exact ⟨.tau, _, .inl rfl, rfl⟩
  | run l k =>
    obtain ⟨_, -, h1⟩ := h4
    cases hc : ctl l k with
    | some x =>
      refine ⟨.tau, (s', .run x.1 x.2, none), .inl rfl, ?_⟩
      cases k with
      | nil => simp [ctl] at hc
      | cons => simp [Program.mach, hc]
    | none =>
      have h3 := Leads.stuck h1 hc
      match k, hc with
      | [], _ => exact ⟨.tau, _, .inl rfl, rfl⟩
      | .stm (.acc a) :: k, _ =>
        obtain ⟨⟨s', l', f⟩, h4⟩ := h3.enabled (t := t) hroom
        cases f <;> exact ⟨.act .go, _, .inr rfl, by simp only [Program.mach, h4]; rfl⟩

/-! ### One thread -/

variable {cs : List (Nat × Op α × Ret)}

/-- **C73 (`oom_test` with `threadsafe = false`, freelist_test.cpp:99-118).** Of the bounded calls of `construct` made one after the other on a new freelist of `n` nodes, thread-safe or
not, the first `n` return different nodes, the others null. -/
theorem freelist_unsync_oom (hf : R.Faithful) (hn : n ≤ R.limit) (hx : MixedExec R n (sequential cs) C) (hp : ∀ c ∈ cs, Bounded R.fixed c.2) (i : Nat)
    (hi : i < cs.length) : cs[i].2.2 = .node (if i < n then some (n - 1 - i) else none) := by
  obtain ⟨C', h1, -⟩ := (freelist_unsync_same hf hx).1
  exact freelist_sequential_oom hf hn h1 hp i hi

/-- **C73 (`run_test` with `threadsafe = false`, freelist_test.cpp:52-97).** Nodes given back are handed out again, the last one first, before other nodes. -/
theorem freelist_unsync_reuse (hf : R.Faithful) (hn : n ≤ R.limit) (hx : MixedExec R n (sequential cs) C) (hd : Disciplined (sequential cs))
    {as bs : List (Op α × Ret)} {ms : List Nat} (hcs : cs.map (·.2) = as ++ (ms.map fun m => (.destruct m, .done)) ++ bs) (ha : ∀ p ∈ as, Bounded R.fixed p)
    (hb : ∀ p ∈ bs, Bounded R.fixed p) (i : Nat) (hi : i < bs.length) : bs[i].2 = .node (ms.reverse ++ (List.range n).reverse.drop as.length)[i]? := by
  obtain ⟨C', h1, -⟩ := (freelist_unsync_same hf hx).1
  exact freelist_sequential_reuse hf hn h1 hd hcs ha hb i hi

end Verif.Freelist
