import Verif.Stack.TextSim

/-!
# The program text of the stack: refinement, and what follows (C52)

No further code of /repo is modelled here.
-/

namespace Verif.Stack.Code
open Lin Text

variable {α : Type} {R : Rep} {n : Nat} {h : History (Op α) (Ret α)}

/-- Configurations of the program text. -/
abbrev TConf (R : Rep) (α : Type) := MConf (SSt R.K α) (TPC (SSt R.K α) (Loc R.K α) (SChoice R.K (Op α) α) (Ret α))

variable {C : TConf R α}

theorem text_inv (hf : R.Faithful) (hn : n ≤ R.limit) {D : SConf R.K α} (hx : WordExec R n h D) (t : Nat) : TextInv R D.s (D.pc t) := by
  obtain ⟨C, -, hr⟩ := stack_words_simulated hf hn hx
  have h1 := hr.pc t
  have h2 := hr.st.mem.limit
  have h3 : ∀ q, okPtr (· < C.s.heap.nalloc) q → ∀ m, R.K.node (R.K.hnd q) = some m → m < R.limit := by
    intro q hq m hm
    rw [hf.words.node_hnd q (okPtr.mono h2 hq)] at hm
    have := hq m hm
    omega
  generalize D.pc t = p at h1
  generalize C.pc t = p' at h1
  cases h1 <;> first | exact trivial | exact h3 _ (by assumption) | assumption

/-- **C52.** Every execution of the program text is an execution of the machine on words, with the same history and the same shared
state. -/
theorem stack_text_refines (hf : R.Faithful) (hn : n ≤ R.limit) (hx : TextExec R n h C) :
    ∃ D : SConf R.K α, WordExec R n h D ∧ D.s = C.s ∧ ∀ t, ∃ n, Text.PCRel (smach α R) .err At n (C.pc t) (D.pc t) :=
  (refines hf).steps (fun _ _ hx t => text_inv hf hn hx t) hx

/-- **C52 (linearizability of the program text).** -/
theorem stack_text_linearizable (hf : R.Faithful) (hn : n ≤ R.limit) (hx : TextExec R n h C) : Linearizable (spec α R.fixed) h := by
  obtain ⟨D, hx, -⟩ := stack_text_refines hf hn hx
  exact stack_words_linearizable hf hn hx

/-- **C52 (no undefined behaviour of the program text).** -/
theorem stack_text_no_undefined_behaviour (hf : R.Faithful) (hn : n ≤ R.limit) (hx : TextExec R n h C) (t : Nat) : C.pc t ≠ .err := by
  obtain ⟨D, hx, -, hp⟩ := stack_text_refines hf hn hx
  intro he
  obtain ⟨_, h1⟩ := hp t
  rw [he] at h1
  exact stack_words_no_undefined_behaviour hf hn hx t h1

/-- **C52 (conservation).** -/
theorem stack_text_conservation (hf : R.Faithful) (hn : n ≤ R.limit) (hx : TextExec R n h C) (hq : ∀ t, C.pc t = .idle)
    (hno : ∀ t rev k, Event.inv t (.consumeAll rev (some k)) ∉ h) :
    ∃ vs, HoldsW R C.s vs ∧ (delivered h ++ vs).Perm (accepted h) := by
  obtain ⟨D, hx, hs, hp⟩ := stack_text_refines hf hn hx
  rw [← hs]
  refine stack_words_conservation hf hn hx (fun t => ?_) hno
  obtain ⟨_, h1⟩ := hp t
  rw [hq t] at h1
  exact h1

/-- **C52.** The number returned by `consume_all_atomic` and `consume_all_atomic_reversed` is the number of elements to which the functor
was applied. -/
theorem stack_text_returned (hf : R.Faithful) (hn : n ≤ R.limit) (hx : TextExec R n h C) {t : Nat} {l : Loc R.K α}
    (ht : C.pc t = .run l []) {c : Nat} (hc : l.returned = some c) : ∃ vs, l.result = .took vs ∧ c = vs.length := by
  obtain ⟨D, -, -, hp⟩ := stack_text_refines hf hn hx
  obtain ⟨_, h1⟩ := hp t
  rw [ht] at h1
  obtain ⟨_, _, h1⟩ := h1
  have h2 : At l [] (D.pc t) := Leads.stuck h1 rfl
  exact h2.2 c hc

/-- **C56 (stack).** At the end of a call: if `pop` (`consume_one`) returns false, its functor was not applied and the output argument not written;
if it takes an element, the functor was applied to it, once. `consume_all_atomic` applies its functor to the elements it takes, once to each. -/
theorem stack_text_output (hf : R.Faithful) (hn : n ≤ R.limit) (hx : TextExec R n h C) {t : Nat} {l : Loc R.K α}
    (ht : C.pc t = .run l []) : (∀ x, l.result = .popped x → l.applied = x.toList) ∧ ∀ vs, l.result = .took vs → l.applied = vs := by
  obtain ⟨D, -, -, hp⟩ := stack_text_refines hf hn hx
  obtain ⟨_, h1⟩ := hp t
  rw [ht] at h1
  obtain ⟨_, _, h1⟩ := h1
  have h2 : At l [] (D.pc t) := Leads.stuck h1 rfl
  have h3 := h2.1
  generalize D.pc t = p at h3
  generalize hk : ([] : LRest R α) = k at h3
  have ho : Output l := by
    cases h3 with
    | fin _ ho => exact ho
    | alloc _ h => exact (h.ne hk.symm).elim
    | free _ h => exact (h.ne hk.symm).elim
    | _ => cases hk
  unfold Output at ho
  exact ⟨fun x hx => by simpa [hx] using ho, fun vs hx => by simpa [hx] using ho⟩

/-! ### Progress -/

/-- **C52 (lock-freedom of the program text).** Every statement counts as a step: `62` is the length of the longest path through the text without
access, and two. -/
theorem stack_text_lock_free (hf : R.Faithful) (hn : n ≤ R.limit) {T k f : Nat}
    (hx : Counted (program R α).mach (Program.ok fun _ o => ∀ b, o ≠ .pushRange b []) (Text.spurious isSpur) T
      ⟨(SConf.initial R n).s, fun _ => .idle⟩ h C k f) : k ≤ 62 * (callCosts (charge T) h + 2 * f) := by
  obtain ⟨D, k', r, h1, -, -, h2⟩ := (refines hf).counted Failures.all (fun _ _ hx t => text_inv hf hn hx t) hx
  have hsp : (fun _ => isSpur) = (spuriousW : SPC R.K α → SChoice R.K (Op α) α → Bool) := by
    funext _ ch; cases ch <;> rfl
  rw [hsp] at h1
  have := stack_words_lock_free hf hn h1
  have : 62 * (k' + f) ≤ 62 * (callCosts (charge T) h + 2 * f) := Nat.mul_le_mul_left _ (by omega)
  omega

theorem Core.enabled {l : Loc R.K α} {a k p} (h : Core l (.stm (.acc a) :: k) p) {s : SSt R.K α}
    (hroom : R.fixed = true ∨ s.mem.nalloc < R.limit) (hI : TextInv R s p) : ∃ y, a.run t s l .go = some y := by
  generalize hk : Item.stm (.acc a) :: k = K at h
  cases h with
  | alloc _ h => subst hk; exact h.enabled hroom
  | free _ h => subst hk; exact h.enabled
  | fin => simp at hk
  | rsv =>
    cases hk
    have h1 : s.mem.nalloc < R.limit := hroom.resolve_left fun h1 => by rw [show R.fixed = false from hI] at h1; cases h1
    simp [Port.osAllocate, Port.acc, port, h1]
  | constr hc hn => cases hk; exact Port.ctor_enabled hn hc.arg s
  | pdestroy | cdestroy | undoD => cases hk; exact Port.dtor_enabled (P := port R α) (by assumption) s
  | lload | pload | cload | eload => cases hk; exact ⟨_, rfl⟩
  | lcas | pcas | ccas => cases hk; simp only [casTos]; split <;> exact ⟨_, rfl⟩
  | _ =>
    cases hk
    simp only [readNext, readNextSpec, setNext, apply, *]
    repeat' split
    all_goals exact ⟨_, rfl⟩

/-- **C52 (never stuck).** A thread that is in a call can make a step, as long as the allocator has memory. -/
theorem stack_text_enabled (hf : R.Faithful) (hn : n ≤ R.limit) (hx : TextExec R n h C) {t : Nat} (ht : C.pc t ≠ .idle)
    (hroom : R.fixed = true ∨ C.s.mem.nalloc < R.limit) :
    ∃ ch y, (ch = .tau ∨ ch = .act .go) ∧ (program R α).mach.step t C.s (C.pc t) ch = some y := by
  obtain ⟨D, hx', hs, hp⟩ := stack_text_refines hf hn hx
  obtain ⟨i, h1⟩ := hp t
  have h2 := text_inv hf hn hx' t
  rw [hs] at h2
  generalize hq : C.pc t = q at h1 ht
  cases q with
  | idle => exact (ht rfl).elim
  | err => exact (stack_text_no_undefined_behaviour hf hn hx t hq).elim
  | ret r => exact ⟨.tau, _, .inl rfl, rfl⟩
  | run l k =>
    obtain ⟨_, -, h1⟩ := h1
    cases hc : ctl l k with
    | some x =>
      refine ⟨.tau, (C.s, .run x.1 x.2, none), .inl rfl, ?_⟩
      cases k with
      | nil => simp [ctl] at hc
      | cons => simp [Program.mach, hc]
    | none =>
      have h3 := Leads.stuck h1 hc
      match k, hc with
      | [], _ => exact ⟨.tau, _, .inl rfl, rfl⟩
      | .stm (.acc a) :: k, _ =>
        obtain ⟨⟨s', l', f⟩, h4⟩ := h3.1.enabled (t := t) hroom h2
        cases f <;> exact ⟨.act .go, _, .inr rfl, by simp only [Program.mach, h4]; rfl⟩

/-! ### Conversely -/

theorem Core.complete {l : Loc R.K α} {a k p} (h : Core l (.stm (.acc a) :: k) p) {t : Nat} {s : SSt R.K α} {ch y} (hok : sfresh R s p)
    (hs : ststep R t s p ch = some y) : a.ok s l ch = true ∧ ∃ z, a.run t s l ch = some z := by
  generalize hk : Item.stm (.acc a) :: k = K at h
  cases h with
  | alloc _ h =>
    subst hk
    rename_i b _ _ a' _
    cases hx : saStep R b s.mem a' ch with
    | none => simp only [ststep] at hs; erw [hx] at hs; cases hs
    | some x => exact h.complete hok hx
  | @free _ _ n d _ _ _ h =>
    subst hk
    cases hx : sdStep R s.mem n d ch with
    | none => simp only [ststep] at hs; erw [hx] at hs; cases hs
    | some x => exact h.complete hx
  | fin => simp at hk
  | rsv =>
    cases hk
    refine ⟨rfl, ?_⟩
    cases ch <;> simp [ststep] at hs
    · simp [Port.osAllocate, Port.acc, port, hs.1]
    · exact ⟨_, rfl⟩
  | constr hc hn =>
    cases hk
    refine ⟨rfl, ?_⟩
    cases ch <;> simp [ststep] at hs
    · exact Port.ctor_enabled hn hc.arg s
    · simp [Port.ctor, port, hn, hc.arg]
  | pdestroy | cdestroy | undoD =>
    cases hk
    refine ⟨rfl, ?_⟩
    cases ch <;> simp [ststep] at hs
    exact Port.dtor_enabled (P := port R α) (by assumption) s
  | lload | pload | cload | eload => cases hk; cases ch <;> simp [ststep] at hs; exact ⟨rfl, _, rfl⟩
  | lcas | pcas | ccas =>
    cases hk
    refine ⟨by simp_all [casTos, sfresh], ?_⟩
    cases ch <;> simp [ststep] at hs
    · simp only [casTos]; split <;> exact ⟨_, rfl⟩
    · exact ⟨_, rfl⟩
  | ptest _ _ ho hn hp =>
    cases hk
    refine ⟨rfl, ?_⟩
    subst ho
    cases ch <;> simp [ststep, hn] at hs
    · simp [readNextSpec, hp]
    · simp [readNextSpec, hp, hs.1]
  | _ =>
    cases hk
    refine ⟨rfl, ?_⟩
    cases ch <;> simp [ststep] at hs
    simp only [readNext, readNextSpec, setNext, apply, *]
    repeat' split
    all_goals exact ⟨_, rfl⟩

theorem complete : Complete (program R α) (smach α R) (fun _ o => ∀ b, o ≠ .pushRange b []) (sokFresh R) isSpur .err (fun _ => TextInv R) At 60 where
  call t s ch s' p e _ hok hs := by
    cases ch with
    | call o =>
      have ho : ∀ b, o ≠ .pushRange b [] := fun b h => hok.2 b (by rw [h])
      simp only [smach, ststep, Option.map_eq_some_iff] at hs
      obtain ⟨q, hq, hs⟩ := hs
      cases hs
      have hb : ∃ x, (program R α).body t o = some x := by
        cases o with
        | pushRange | reserve =>
          by_cases hfx : R.fixed = true
          · simp [sstart, hfx] at hq
          · simp [program, hfx]
        | consumeAll rev => cases rev <;> exact ⟨_, rfl⟩
        | _ => exact ⟨_, rfl⟩
      obtain ⟨⟨l, a⟩, hb⟩ := hb
      obtain ⟨ch, p', -, h1, h2, h3⟩ := call_start t s o l a hb ho
      refine ⟨o, l, a, hb, ho, rfl, rfl, ?_⟩
      cases ch <;> simp [ststep] at h2
      obtain ⟨h2, rfl⟩ := h2
      rw [hq] at h2
      cases h2
      exact h3
    | _ => simp [smach, ststep] at hs
  access t s l a k p ch y _ h _ hok hs := h.1.complete hok.1 hs
  res t s r ch y _ hs := by cases ch <;> simp [smach, ststep] at hs; exact hs.symm
  err t s ch _ := by cases ch <;> rfl

/-- **C52 (the same executions).** The program text and the machine on words have the same histories, and the same shared states
after each of them. -/
theorem stack_text_same (hf : R.Faithful) (hn : n ≤ R.limit) {s : SSt R.K α} :
    (∃ C : TConf R α, TextExec R n h C ∧ C.s = s) ↔ ∃ D : SConf R.K α, WordExec R n h D ∧ D.s = s := by
  constructor
  · rintro ⟨C, hx, rfl⟩
    obtain ⟨D, h1, h2, -⟩ := stack_text_refines hf hn hx
    exact ⟨D, h1, h2⟩
  · rintro ⟨D, hx, rfl⟩
    obtain ⟨C, h1, h2, -⟩ := (refines hf).complete complete (fun _ _ hx t => text_inv hf hn hx t) hx
    exact ⟨C, h1, h2⟩

end Verif.Stack.Code
