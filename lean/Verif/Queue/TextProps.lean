import Verif.Queue.TextSim

/-!
# The program text of the queue: refinement, and what follows (C52)

No further code of /repo is modelled here.
-/

namespace Verif.Queue.Code
open Lin Text

variable {α : Type} {R : Rep} {n : Nat} {h : History (Op α) (Ret α)}

/-- Configurations of the program text. -/
abbrev TConf (R : Rep) (α : Type) := MConf (SSt R.K α) (TPC (SSt R.K α) (Loc R.K α) (SChoice R.K (Op α) α) (Ret α))

variable {C : TConf R α}

theorem text_inv (hf : R.Faithful) (hn : n + 1 ≤ R.limit) {D : SConf R.K α} (hx : WordExec R n h D) (t : Nat) : TextInv R D.s (D.pc t) := by
  obtain ⟨C, -, hr⟩ := queue_words_simulated hf hn hx
  have h1 := hr.pc t
  generalize D.pc t = p at h1
  generalize C.pc t = p' at h1
  cases h1 <;> first | exact trivial | assumption

/-- **C52.** Every execution of the program text is an execution of the machine on words, with the same history and the same shared
state. -/
theorem queue_text_refines (hf : R.Faithful) (hn : n + 1 ≤ R.limit) (hx : TextExec R n h C) :
    ∃ D : SConf R.K α, WordExec R n h D ∧ D.s = C.s ∧ ∀ t, ∃ n, Text.PCRel (smach α R) .err At n (C.pc t) (D.pc t) :=
  refines.steps (fun _ _ hx t => text_inv hf hn hx t) hx

/-- **C52 (linearizability of the program text).** -/
theorem queue_text_linearizable (hf : R.Faithful) (hn : n + 1 ≤ R.limit) (hx : TextExec R n h C) : Linearizable (spec α R.fixed) h := by
  obtain ⟨D, hx, -⟩ := queue_text_refines hf hn hx
  exact queue_words_linearizable hf hn hx

/-- **C52 (no undefined behaviour of the program text).** -/
theorem queue_text_no_undefined_behaviour (hf : R.Faithful) (hn : n + 1 ≤ R.limit) (hx : TextExec R n h C) (t : Nat) : C.pc t ≠ .err := by
  obtain ⟨D, hx, -, hp⟩ := queue_text_refines hf hn hx
  intro he
  obtain ⟨_, h1⟩ := hp t
  rw [he] at h1
  exact queue_words_no_undefined_behaviour hf hn hx t h1

/-- **C52 (conservation).** -/
theorem queue_text_conservation (hf : R.Faithful) (hn : n + 1 ≤ R.limit) (hx : TextExec R n h C) (hq : ∀ t, C.pc t = .idle) :
    ∃ vs, HoldsW R C.s vs ∧ (delivered h ++ vs).Perm (accepted h) := by
  obtain ⟨D, hx, hs, hp⟩ := queue_text_refines hf hn hx
  rw [← hs]
  refine queue_words_conservation hf hn hx (fun t => ?_)
  obtain ⟨_, h1⟩ := hp t
  rw [hq t] at h1
  exact h1

/-- **C56 (queue).** At the end of a `pop` that has taken `v`: the output argument is `v`. -/
theorem queue_text_output (hf : R.Faithful) (hn : n + 1 ≤ R.limit) (hx : TextExec R n h C) {t : Nat} {l : Loc R.K α}
    (ht : C.pc t = .run l []) {v : α} (hr : l.result = .popped (some v)) : l.ret = some v := by
  obtain ⟨D, -, -, hp⟩ := queue_text_refines hf hn hx
  obtain ⟨_, h1⟩ := hp t
  rw [ht] at h1
  obtain ⟨_, _, h1⟩ := h1
  have h3 : At l [] (D.pc t) := Leads.stuck h1 rfl
  generalize D.pc t = p at h3
  generalize hk : ([] : LRest R α) = k at h3
  have ho : Output l := by
    cases h3 with
    | fin _ ho => exact ho
    | alloc _ h => exact (h.ne hk.symm).elim
    | free _ h => exact (h.ne hk.symm).elim
    | _ => cases hk
  unfold Output at ho
  simpa [hr] using ho

/-! ### Progress -/

open Classical in
/-- A compare-exchange fails spuriously. (At the first access of `empty` the choice `.spur` is not a failure: it selects the order of
evaluation.) -/
noncomputable def casFails : TPC (SSt R.K α) (Loc R.K α) (SChoice R.K (Op α) α) (Ret α) → TChoice (SChoice R.K (Op α) α) (Op α) → Bool
  | .run _ (.stm (.acc a) :: _), .act ch => isSpur ch && decide (a ≠ evalFirst)
  | _, _ => false

/-- An access that does not change which operand of `==` was evaluated first. -/
def Keeps (a : LAcc R α) : Prop := ∀ t s l ch y, a.run t s l ch = some y → y.2.1.leftFirst = l.leftFirst

theorem Keeps.ne {a : LAcc R α} (h : Keeps a) (s : SSt R.K α) (l : Loc R.K α) : a ≠ evalFirst := by
  rintro rfl
  have := h 0 s { l with leftFirst := false } .go _ rfl
  cases this

theorem keeps_acc {f ok kind} : Keeps (R := R) ((port R α).acc f ok kind) := by
  intro t s l ch y h
  simp only [Port.acc, Option.map_eq_some_iff] at h
  obtain ⟨x, -, rfl⟩ := h
  rfl

theorem keeps_loadHead {store : Loc R.K α → SSnap R.K → Loc R.K α} {ok} (h : ∀ l x, (store l x).leftFirst = l.leftFirst) :
    Keeps (loadHead store ok) := by
  intro t s l ch y hy
  cases ch <;> cases hy
  exact h _ _

theorem keeps_loadTail {store : Loc R.K α → SSnap R.K → Loc R.K α} {ok} (h : ∀ l x, (store l x).leftFirst = l.leftFirst) :
    Keeps (loadTail store ok) := by
  intro t s l ch y hy
  cases ch <;> cases hy
  exact h _ _

theorem At.keeps {l : Loc R.K α} {a k p} (h : At l (.stm (.acc a) :: k) p) : p = .eHead ∧ a = evalFirst ∨ p ≠ .eHead ∧ Keeps a := by
  generalize hk : Item.stm (.acc a) :: k = K at h
  cases h with
  | alloc _ h => subst hk; exact .inr ⟨by simp, by cases h <;> exact keeps_acc⟩
  | free _ h => subst hk; exact .inr ⟨by simp, by cases h <;> exact keeps_acc⟩
  | fin => cases hk
  | eHead => cases hk; exact .inl ⟨rfl, rfl⟩
  | rsv => cases hk; exact .inr ⟨by simp, keeps_acc⟩
  | pTail | pCheck | cTail | eTail => cases hk; exact .inr ⟨by simp, keeps_loadTail fun _ _ => rfl⟩
  | cHead | cCheck | eHead2 => cases hk; exact .inr ⟨by simp, keeps_loadHead fun _ _ => rfl⟩
  | constr | nload | nstore | pNext | pCas | swing | cNext | cData | cCas | cDestroy =>
    cases hk
    refine .inr ⟨by simp, fun t s l ch y h => ?_⟩
    simp only [Port.ctor, ctorLoad, ctorStore, loadNext, casNext, casTail, copyPayload, casHead, dtor] at h
    repeat' split at h
    all_goals first | (cases h; done) | (cases h; rfl)

theorem failures : Failures (program R α) isSpur At casFails (spuriousW (α := α)) where
  sub p ch h := by cases ch <;> first | rfl | (cases p <;> cases h)
  call q o := by cases q with
    | run l k => cases k with
      | nil => rfl
      | cons i k => cases i with
        | stm a => cases a <;> rfl
        | _ => rfl
    | _ => rfl
  tau q := by cases q with
    | run l k => cases k with
      | nil => rfl
      | cons i k => cases i with
        | stm a => cases a <;> rfl
        | _ => rfl
    | _ => rfl
  env t s q p ch s' h := by cases h
  act t s l a k p ch y h hr := by
    rcases h.keeps with ⟨rfl, rfl⟩ | ⟨hp, hk⟩
    · cases ch <;> simp [casFails, spuriousW, isSpur]
    · have := hk.ne s l
      cases ch <;> simp only [casFails, isSpur, this, ne_eq, not_false_eq_true, decide_true, Bool.and_true]
      all_goals cases p <;> first | rfl | exact absurd rfl hp

/-- **C52 (lock-freedom of the program text).** Every statement counts as a step. `f`: spurious failures of compare-exchanges. -/
theorem queue_text_lock_free (hf : R.Faithful) (hn : n + 1 ≤ R.limit) {T k f : Nat}
    (hx : Counted (program R α).mach (Program.ok fun _ _ => True) casFails T
      ⟨(SConf.initial R n).s, fun _ => .idle⟩ h C k f) : k ≤ 62 * (callCosts (charge T) h + 6 * f) := by
  obtain ⟨D, k', r, h1, -, -, h2⟩ := refines.counted failures (fun _ _ hx t => text_inv hf hn hx t) hx
  have := queue_words_lock_free hf hn h1
  have : 62 * (k' + f) ≤ 62 * (callCosts (charge T) h + 6 * f) := Nat.mul_le_mul_left _ (by omega)
  omega

theorem At.enabled [Nonempty α] {l : Loc R.K α} {a k p} (h : At l (.stm (.acc a) :: k) p) {s : SSt R.K α}
    (hroom : R.fixed = true ∨ s.mem.nalloc < R.limit) (hI : TextInv R s p) :
    ∃ ch y, (ch = .go ∨ ∃ v, ch = .garbage v) ∧ a.run t s l ch = some y := by
  have triv : (∃ y, a.run t s l .go = some y) → ∃ ch y, (ch = .go ∨ ∃ v, ch = .garbage v) ∧ a.run t s l ch = some y :=
    fun ⟨y, h⟩ => ⟨.go, y, .inl rfl, h⟩
  generalize hk : Item.stm (.acc a) :: k = K at h
  cases h with
  | alloc _ h => subst hk; exact triv (h.enabled hroom)
  | free _ h => subst hk; exact triv h.enabled
  | fin => simp at hk
  | rsv =>
    cases hk
    have h1 : s.mem.nalloc < R.limit := hroom.resolve_left fun h1 => by rw [show R.fixed = false from hI] at h1; cases h1
    refine triv ?_
    simp [Port.osAllocate, Port.acc, port, h1]
  | constr hc hn => cases hk; exact triv (Port.ctor_enabled hn hc s)
  | pTail | pCheck | cHead | cTail | cCheck | eHead | eTail | eHead2 => cases hk; exact triv ⟨_, rfl⟩
  | pCas h1 h2 h3 hx h4 =>
    cases hk
    refine triv ?_
    simp only [casNext, h4]
    split <;> exact ⟨_, rfl⟩
  | swing => cases hk; refine triv ?_; simp only [casTail]; split <;> exact ⟨_, rfl⟩
  | cCas => cases hk; refine triv ?_; simp only [casHead]; split <;> exact ⟨_, rfl⟩
  | @cData _ H y x nx h1 h2 h3 =>
    cases hk
    simp only [copyPayload, h3]
    cases hd : s.mem.data y with
    | some v => exact ⟨.go, _, .inl rfl, by simp only [hd]; rfl⟩
    | none =>
      by_cases hv : s.headVer = l.head.ver
      · exact ⟨.go, _, .inl rfl, by simp only [hd, if_pos hv]; rfl⟩
      · obtain ⟨v⟩ := ‹Nonempty α›
        exact ⟨.garbage v, _, .inr ⟨v, rfl⟩, by simp only [if_neg hv]; rfl⟩
  | @pNext _ _ T _ _ _ h4 =>
    cases hk
    refine triv ?_
    cases hx : R.K.node (R.K.ptr T.v) <;> simp only [loadNext, h4, hx] <;> exact ⟨_, rfl⟩
  | @cNext _ H _ _ h4 _ =>
    cases hk
    refine triv ?_
    cases hx : R.K.node (R.K.ptr H.v) <;> simp only [loadNext, h4, hx] <;> exact ⟨_, rfl⟩
  | nload h1 => cases hk; refine triv ?_; simp only [ctorLoad, h1]; exact ⟨_, rfl⟩
  | nstore h1 => cases hk; refine triv ?_; simp only [ctorStore, h1]; exact ⟨_, rfl⟩
  | cDestroy h1 => cases hk; refine triv ?_; simp only [dtor, h1]; exact ⟨_, rfl⟩

/-- **C52 (never stuck).** A thread that is in a call can make a step, as long as the allocator has memory. -/
theorem queue_text_enabled [Nonempty α] (hf : R.Faithful) (hn : n + 1 ≤ R.limit) (hx : TextExec R n h C) {t : Nat} (ht : C.pc t ≠ .idle)
    (hroom : R.fixed = true ∨ C.s.mem.nalloc < R.limit) :
    ∃ ch y, (ch = .tau ∨ ch = .act .go ∨ ∃ v, ch = .act (.garbage v)) ∧ (program R α).mach.step t C.s (C.pc t) ch = some y := by
  obtain ⟨D, hx', hs, hp⟩ := queue_text_refines hf hn hx
  obtain ⟨i, h1⟩ := hp t
  have h2 := text_inv hf hn hx' t
  rw [hs] at h2
  generalize hq : C.pc t = q at h1 ht
  cases q with
  | idle => exact (ht rfl).elim
  | err => exact (queue_text_no_undefined_behaviour hf hn hx t hq).elim
  | ret r => exact ⟨.tau, _, .inl rfl, rfl⟩
  | run l k =>
    obtain ⟨_, -, h1⟩ := h1
    cases hc : ctl l k with
    | some x =>
      refine ⟨.tau, (C.s, .run x.1 x.2, none), .inl rfl, ?_⟩
      cases k with
      | nil => simp [ctl] at hc
      | cons => simp [Program.mach, hc]
    | none =>
      have h3 := Leads.stuck h1 hc
      match k, hc with
      | [], _ => exact ⟨.tau, _, .inl rfl, rfl⟩
      | .stm (.acc a) :: k, _ =>
        obtain ⟨ch, ⟨s', l', f⟩, h5, h4⟩ := h3.enabled (t := t) hroom h2
        have h6 : (TChoice.act ch : TChoice _ (Op α)) = .tau ∨ (TChoice.act ch : TChoice _ (Op α)) = .act .go ∨
            ∃ v, (TChoice.act ch : TChoice _ (Op α)) = .act (.garbage v) := by
          rcases h5 with rfl | ⟨v, rfl⟩
          · exact .inr (.inl rfl)
          · exact .inr (.inr ⟨v, rfl⟩)
        cases f <;> exact ⟨.act ch, _, h6, by simp only [Program.mach, h4]; rfl⟩

/-! ### Conversely -/

theorem At.complete {l : Loc R.K α} {a k p} (h : At l (.stm (.acc a) :: k) p) {t : Nat} {s : SSt R.K α} {ch y} (hok : sfresh R s p)
    (hs : ststep R t s p ch = some y) : a.ok s l ch = true ∧ ∃ z, a.run t s l ch = some z := by
  generalize hk : Item.stm (.acc a) :: k = K at h
  cases h with
  | alloc _ h =>
    subst hk
    rename_i b _ a' _
    cases hx : saStep R b s.mem a' ch with
    | none => simp only [ststep] at hs; erw [hx] at hs; cases hs
    | some x => exact h.complete hok hx
  | @free _ _ n d _ _ _ h =>
    subst hk
    cases hx : sdStep R s.mem n d ch with
    | none => simp only [ststep] at hs; erw [hx] at hs; cases hs
    | some x => exact h.complete hx
  | fin => simp at hk
  | rsv =>
    cases hk
    refine ⟨rfl, ?_⟩
    cases ch <;> simp [ststep] at hs
    · simp [Port.osAllocate, Port.acc, port, hs.1]
    · exact ⟨_, rfl⟩
  | constr hc hn =>
    cases hk
    refine ⟨rfl, ?_⟩
    cases ch <;> simp [ststep] at hs
    · exact Port.ctor_enabled hn hc s
    · simp [Port.ctor, port, hn, hc]
  | pNext _ _ ho hn =>
    cases hk
    subst ho
    refine ⟨rfl, ?_⟩
    cases hx : R.K.node (R.K.ptr l.tail.v) with
    | none => simp [loadNext, hn, hx]
    | some x =>
      cases ch <;> simp [ststep, hx] at hs
      · simp [loadNext, hn, hx]
      · simp [loadNext, hn, hx, hs.1]
  | cNext ho hn _ =>
    cases hk
    subst ho
    refine ⟨rfl, ?_⟩
    cases hx : R.K.node (R.K.ptr l.head.v) with
    | none => simp [loadNext, hn, hx]
    | some x =>
      cases ch <;> simp [ststep, hx] at hs
      · simp [loadNext, hn, hx]
      · simp [loadNext, hn, hx, hs.1]
  | pCheck _ _ ho | cCheck ho =>
    cases hk
    subst ho
    refine ⟨by simpa [loadTail, loadHead, tailFresh, headFresh, sfresh] using hok, ?_⟩
    cases ch <;> simp [ststep] at hs
    exact ⟨_, rfl⟩
  | pCas _ _ ho hx ht hN =>
    cases hk
    subst ho hN
    refine ⟨by simpa [casNext, ht] using hok _ hx, ?_⟩
    cases ch <;> simp [ststep] at hs
    · simp only [casNext, ht]; split <;> exact ⟨_, rfl⟩
    · simp [casNext, ht]
  | swing _ ho =>
    cases hk
    subst ho
    refine ⟨by simpa [casTail, tailFresh, sfresh] using hok, ?_⟩
    cases ch <;> simp [ststep] at hs
    simp only [casTail]; split <;> exact ⟨_, rfl⟩
  | cCas _ _ ho =>
    cases hk
    subst ho
    refine ⟨by simpa [casHead, headFresh, sfresh] using hok, ?_⟩
    cases ch <;> simp [ststep] at hs
    · simp only [casHead]; split <;> exact ⟨_, rfl⟩
    · exact ⟨_, rfl⟩
  | @cData _ _ y _ _ ho _ hy =>
    cases hk
    subst ho
    refine ⟨rfl, ?_⟩
    cases ch with
    | go =>
      simp only [ststep] at hs
      simp only [copyPayload, hy]
      cases hd : s.mem.data y with
      | none => simp only [hd] at hs ⊢; split at hs <;> simp_all
      | some v => exact ⟨_, rfl⟩
    | garbage v =>
      simp only [ststep] at hs
      simp only [copyPayload, hy]
      split at hs <;> simp_all
    | throw => simp [copyPayload, hy]
    | _ => simp [ststep] at hs
  | nload h | nstore h | cDestroy h =>
    cases hk
    refine ⟨rfl, ?_⟩
    cases ch <;> simp [ststep] at hs
    simp [ctorLoad, ctorStore, dtor, h]
  | _ =>
    cases hk
    refine ⟨rfl, ?_⟩
    cases ch <;> simp [ststep] at hs <;> exact ⟨_, rfl⟩

theorem complete : Complete (program R α) (smach α R) (fun _ _ => True) (sokFresh R) isSpur .err (fun _ => TextInv R) At 60 where
  call t s ch s' p e _ hok hs := by
    cases ch with
    | call o =>
      simp only [smach, ststep, Option.map_eq_some_iff] at hs
      obtain ⟨q, hq, hs⟩ := hs
      cases hs
      have hb : ∃ x, (program R α).body t o = some x := by
        cases o with
        | reserve =>
          by_cases hfx : R.fixed = true
          · simp [sstart, hfx] at hq
          · simp [program, hfx]
        | _ => exact ⟨_, rfl⟩
      obtain ⟨⟨l, a⟩, hb⟩ := hb
      obtain ⟨ch, p', -, h1, h2, h3⟩ := call_start t s o l a hb
      refine ⟨o, l, a, hb, trivial, rfl, rfl, ?_⟩
      cases ch <;> simp [ststep] at h2
      obtain ⟨h2, rfl⟩ := h2
      rw [hq] at h2
      cases h2
      exact h3
    | _ => simp [smach, ststep] at hs
  access t s l a k p ch y _ h _ hok hs := h.complete hok hs
  res t s r ch y _ hs := by cases ch <;> simp [smach, ststep] at hs; exact hs.symm
  err t s ch _ := by cases ch <;> rfl

/-- **C52 (the same executions).** The program text and the machine on words have the same histories, and the same shared states
after each of them. -/
theorem queue_text_same (hf : R.Faithful) (hn : n + 1 ≤ R.limit) {s : SSt R.K α} :
    (∃ C : TConf R α, TextExec R n h C ∧ C.s = s) ↔ ∃ D : SConf R.K α, WordExec R n h D ∧ D.s = s := by
  constructor
  · rintro ⟨C, hx, rfl⟩
    obtain ⟨D, h1, h2, -⟩ := queue_text_refines hf hn hx
    exact ⟨D, h1, h2⟩
  · rintro ⟨D, hx, rfl⟩
    obtain ⟨C, h1, h2, -⟩ := refines.complete complete (fun _ _ hx t => text_inv hf hn hx t) hx
    exact ⟨C, h1, h2⟩

end Verif.Queue.Code
