import Verif.WordReps
import Verif.Stack.WordSim
import Verif.Stack.Safety
import Verif.Stack.Observe
import Verif.Stack.Progress
import Verif.Stack.Solo

/-!
# Stack on stored words: simulation of executions, and what follows (C51)

No further code of /repo is modelled here.
-/

namespace Verif.Stack
open Lin

variable {α : Type} {R : Rep} {n : Nat} {h : History (Op α) (Ret α)} {Cw : SConf R.K α}

/-- Configurations that correspond to each other. -/
structure ConfRel (R : Rep) (C : Conf α) (Cw : SConf R.K α) : Prop where
  st : StRel R C.s Cw.s
  pc : ∀ t, PCAt R C.s (C.pc t) (Cw.pc t)

theorem ConfRel.initial (hf : R.Faithful) (hn : n ≤ R.limit) : ConfRel R (Conf.initial n : Conf α) (SConf.initial R n) where
  st := ⟨(MemRel.initial hf hn).1, rfl, rfl, ⟨okPtr.none, hf.pos⟩, (Nat.zero_mod _).symm⟩
  pc _ := .idle

theorem conf_step (hf : R.Faithful) {C : Conf α} (hr : ConfRel R C Cw) {t : Nat} {ch : SChoice R.K (Op α) α} {w' q' e}
    (hs : ststep R t Cw.s (Cw.pc t) ch = some (w', q', e)) (hok : sokFresh R Cw.s (Cw.pc t) ch) :
    ∃ s' p', tstep R.cfg t C.s (C.pc t) ch.base = some (s', p', e) ∧ okFresh R.cfg C.s (C.pc t) ch.base ∧
      ConfRel R ⟨s', upd C.pc t p'⟩ ⟨w', upd Cw.pc t q'⟩ := by
  obtain ⟨s', p', h1, h2, h3, h4⟩ := step_sim hf hr.st (hr.pc t) hok.1 hs
  refine ⟨s', p', h1, ⟨fresh_of hr.st (hr.pc t) hok.1, ?_⟩, h2, fun u => ?_⟩
  · intro b hb
    cases ch <;> simp [SChoice.base] at hb
    exact hok.2 b (by rw [hb])
  · by_cases hu : u = t
    · subst hu; simpa using h3
    · simp only [upd_ne _ _ _ hu]
      exact (hr.pc u).mono h4.1.1 h4.1.2 h4.2

/-- **C51.** Every execution on words is an execution of the machine of `Stack/Model`, with the same history. -/
theorem stack_words_simulated (hf : R.Faithful) (hn : n ≤ R.limit) (hx : WordExec R n h Cw) :
    ∃ C, FreshExec R.cfg n h C ∧ ConfRel R C Cw := by
  induction hx with
  | refl => exact ⟨_, .refl _, .initial hf hn⟩
  | @step h Cw t ch w' q' e _ hs hok ih =>
    obtain ⟨C, hx, hr⟩ := ih
    obtain ⟨s', p', h1, h2, h3⟩ := conf_step hf hr hs hok
    exact ⟨_, .step hx h1 h2, h3⟩

/-- **C51 (linearizability on words).** -/
theorem stack_words_linearizable (hf : R.Faithful) (hn : n ≤ R.limit) (hx : WordExec R n h Cw) : Linearizable (spec α R.fixed) h := by
  obtain ⟨C, hx, -⟩ := stack_words_simulated hf hn hx
  exact stack_linearizable hx

/-- **C51 (no undefined behaviour on words).** -/
theorem stack_words_no_undefined_behaviour (hf : R.Faithful) (hn : n ≤ R.limit) (hx : WordExec R n h Cw) (t : Nat) :
    Cw.pc t ≠ .err := by
  obtain ⟨C, hx, hr⟩ := stack_words_simulated hf hn hx
  intro he
  have h1 := hr.pc t
  have h2 := stack_no_undefined_behaviour hx t
  rw [he] at h1
  generalize C.pc t = p at h1 h2
  cases h1
  exact h2 rfl

/-- The contents of a stack on words: the payloads of the nodes reached from `tos`, following handles. -/
def HoldsW (R : Rep) (s : SSt R.K α) (vs : List α) : Prop :=
  ∃ S, Linked R s.mem (R.K.ptr s.tos) S ∧ S.map s.mem.data = vs.map some

theorem StRel.holds (hf : R.Faithful) {s : St α} {w : SSt R.K α} (hs : StRel R s w) {vs : List α} (hv : Holds s vs) : HoldsW R w vs := by
  obtain ⟨S, h1, h2⟩ := hv
  refine ⟨S, ?_, by rw [hs.mem.data]; exact h2⟩
  rw [hs.tos, hf.ptr (hs.ok.mono hs.mem.limit)]
  exact hs.mem.linked hf h1 hs.ok.1

/-- **C51 (conservation on words).** When no call is in progress, the list of nodes reached from the word `tos` holds what was
accepted and not handed out. -/
theorem stack_words_conservation (hf : R.Faithful) (hn : n ≤ R.limit) (hx : WordExec R n h Cw) (hq : ∀ t, Cw.pc t = .idle)
    (hno : ∀ t rev k, Event.inv t (.consumeAll rev (some k)) ∉ h) :
    ∃ vs, HoldsW R Cw.s vs ∧ (delivered h ++ vs).Perm (accepted h) := by
  obtain ⟨C, hx, hr⟩ := stack_words_simulated hf hn hx
  have hq' : ∀ t, C.pc t = .idle := by
    intro t
    have h1 := hr.pc t
    rw [hq t] at h1
    generalize C.pc t = p at h1 ⊢
    cases h1
    rfl
  obtain ⟨vs, h1, h2⟩ := stack_conservation hx hq' hno
  exact ⟨vs, hr.st.holds hf h1, h2⟩

/-! ### Progress -/

/-- Spurious failures on words. -/
def spuriousW {K : Words} (_ : SPC K α) : SChoice K (Op α) α → Bool
  | .spur => true
  | _ => false

/-- **C51 (lock-freedom on words).** The bound of `stack_lock_free`. -/
theorem stack_words_lock_free (hf : R.Faithful) (hn : n ≤ R.limit) {T k f : Nat}
    (hx : Counted (smach α R) (sokFresh R) spuriousW T (SConf.initial R n) h Cw k f) : k ≤ callCosts (charge T) h + f := by
  have : ∃ C, Counted (mach α R.cfg) (okFresh R.cfg) spurious T (Conf.initial n) h C k f ∧ ConfRel R C Cw := by
    induction hx with
    | refl => exact ⟨_, .refl, .initial hf hn⟩
    | @step h Cw t ch w' q' e k f _ ht hs hok hsp ih =>
      obtain ⟨C, hx, hr⟩ := ih
      obtain ⟨s', p', h1, h2, h3⟩ := conf_step hf hr hs hok
      exact ⟨_, .step hx ht h1 h2 (by cases ch <;> first | rfl | simp [spuriousW] at hsp), h3⟩
    | @fail h Cw t ch w' q' e k f _ ht hs hok hsp ih =>
      obtain ⟨C, hx, hr⟩ := ih
      obtain ⟨s', p', h1, h2, h3⟩ := conf_step hf hr hs hok
      exact ⟨_, .fail hx ht h1 h2 (by cases ch <;> first | rfl | simp [spuriousW] at hsp), h3⟩
  obtain ⟨C, hx, -⟩ := this
  exact stack_lock_free hx

/-- If the machine on pairs can make an ordinary step, so can the machine on words. -/
theorem step_enabled (hf : R.Faithful) {t : Nat} {s : St α} {w : SSt R.K α} (hs : StRel R s w) {p : PC α} {q : SPC R.K α}
    (hp : PCAt R s p q) (hroom : R.fixed = true ∨ s.heap.nalloc < R.limit) {x} (hst : tstep R.cfg t s p .go = some x) :
    ∃ y, ststep R t w q .go = some y := by
  have hL := hs.mem.limit
  cases hp with
  | @alloc b k a a' h1 h2 =>
    simp only [tstep] at hst
    cases ha : aStep R.cfg b s.heap a (Choice.go : Choice (Op α)) with
    | none => simp [ha] at hst
    | some y =>
      obtain ⟨⟨m, r⟩, hy⟩ := saStep_enabled hf hs.mem h2 hroom ha
      simp only [ststep, hy]
      cases r <;> exact ⟨_, rfl⟩
  | @free k k' n d d' h1 h2 h3 =>
    obtain ⟨⟨m, r⟩, hy⟩ := sdStep_enabled (O := Op α) R w.mem n d'
    simp only [ststep, hy]
    cases r <;> exact ⟨_, rfl⟩
  | idle => simp [tstep] at hst
  | err => simp [tstep] at hst
  | constr b h1 h2 => simp only [ststep]; split <;> (try split) <;> exact ⟨_, rfl⟩
  | @rlink b acc v rest te n h1 h2 => cases te <;> exact ⟨_, rfl⟩
  | @ptest thr o o' h1 =>
    simp only [ststep]
    cases R.K.node (R.K.ptr o'.v) <;> exact ⟨_, rfl⟩
  | @pcas thr o o' nx x h1 h2 =>
    simp only [ststep]
    split
    · rename_i he
      rw [hs.tos, h1.val, hf.eq_iff (hs.ok.mono hL) (h1.ok.mono hL)] at he
      simp only [tstep, he, if_true] at hst
      rw [h1.val, hf.node (h1.ok.mono hL)]
      cases hp : o.v.ptr with
      | none => simp [hp] at hst
      | some m => exact ⟨_, rfl⟩
    · exact ⟨_, rfl⟩
  | @ccas rev thr o o' h1 =>
    simp only [ststep]
    split
    · rename_i he
      rw [hs.tos, h1.val, hf.eq_iff (hs.ok.mono hL) (h1.ok.mono hL)] at he
      simp only [tstep, he, if_true] at hst
      rw [h1.val, hf.node (h1.ok.mono hL)]
      cases hp : o.v.ptr with
      | none => simp [hp] at hst
      | some m => exact ⟨_, rfl⟩
    · exact ⟨_, rfl⟩
  | lcas r h1 h2 h3 => simp only [ststep]; split <;> exact ⟨_, rfl⟩
  | papply thr h1 => simp only [ststep]; split <;> (try split) <;> exact ⟨_, rfl⟩
  | pdestroy v h1 => simp only [ststep]; split <;> exact ⟨_, rfl⟩
  | ctest rev thr h1 => simp only [ststep]; split <;> exact ⟨_, rfl⟩
  | capply thr acc h1 => simp only [ststep]; split <;> (try split) <;> exact ⟨_, rfl⟩
  | cdestroy thr acc h1 h2 => simp only [ststep]; split <;> exact ⟨_, rfl⟩
  | undoD h1 h2 => simp only [ststep]; split <;> exact ⟨_, rfl⟩
  | rsv k h1 =>
    cases k with
    | zero => exact ⟨_, rfl⟩
    | succ k =>
      rcases hroom with h2 | h2
      · rw [h1] at h2; cases h2
      · simp [ststep, hs.mem.nalloc, h2]
  | _ => exact ⟨_, rfl⟩

/-- **C51 (never stuck).** A thread that is in a call can make an ordinary step, as long as the allocator has memory. -/
theorem stack_words_enabled (hf : R.Faithful) (hn : n ≤ R.limit) (hx : WordExec R n h Cw) {t : Nat} (ht : Cw.pc t ≠ .idle)
    (hroom : R.fixed = true ∨ Cw.s.mem.nalloc < R.limit) : ∃ y, ststep R t Cw.s (Cw.pc t) .go = some y := by
  obtain ⟨C, hx, hr⟩ := stack_words_simulated hf hn hx
  obtain ⟨g, c, hi, -⟩ := hx.inv
  have h1 : C.pc t ≠ .idle := by
    intro h1
    have h2 := hr.pc t
    rw [h1] at h2
    generalize hq : Cw.pc t = q at h2
    cases h2
    exact ht hq
  obtain ⟨s', p', e, h2⟩ := go_enabled (t := t) (hi.loc t) h1
  exact step_enabled hf hr.st (hr.pc t) (hr.st.mem.nalloc ▸ hroom) h2

/-! ### Links are plain pointers -/

theorem aStep_tag {O : Type} {cfg : Cfg} {b : Bool} {h h' : Heap α} {a : APC} {ch : Choice O} {r}
    (ht : ∀ n, (h.next n).tag = 0) (hs : aStep cfg b h a ch = some (h', r)) : ∀ n, (h'.next n).tag = 0 := by
  intro n
  revert hs
  fun_cases aStep cfg b h a ch <;> simp <;> intro hs <;> (try intro _) <;> (try subst hs) <;> (try exact ht n)
  all_goals (by_cases hn : n = h.nalloc <;> simp [Heap.malloc, upd, hn, ht])

theorem dStep_tag {O : Type} {h h' : Heap α} {m : Nat} {a : DPC} {ch : Choice O} {r}
    (ht : ∀ n, (h.next n).tag = 0) (hs : dStep h m a ch = some (h', r)) : ∀ n, (h'.next n).tag = 0 := by
  intro n
  revert hs
  fun_cases dStep h m a ch <;> simp <;> intro hs <;> (try intro _) <;> (try subst hs) <;> (try exact ht n)
  all_goals (by_cases hn : n = m <;> simp [Heap.setNextPtr, upd, hn, ht])

theorem tstep_tag {cfg : Cfg} {t : Nat} {s s' : St α} {p p' : PC α} {ch : Choice (Op α)} {e}
    (ht : ∀ n, (s.heap.next n).tag = 0) (hs : tstep cfg t s p ch = some (s', p', e)) : ∀ n, (s'.heap.next n).tag = 0 := by
  have hset : ∀ m x n, ((s.heap.setNextPtr m x).next n).tag = 0 := by
    intro m x n
    by_cases hn : n = m <;> simp [Heap.setNextPtr, upd, hn, ht]
  revert hs
  have hmal : ∀ n, (s.heap.malloc.next n).tag = 0 := by
    intro n
    by_cases hn : n = s.heap.nalloc <;> simp [Heap.malloc, upd, hn, ht]
  fun_cases tstep cfg t s p ch <;> simp only [Option.some.injEq, Prod.mk.injEq, reduceCtorEq, false_implies, Option.map_eq_some_iff] <;>
    first
    | (rintro ⟨rfl, _⟩; first | exact ht | exact hset _ _ | exact hmal | exact aStep_tag ht (by assumption) |
        exact dStep_tag ht (by assumption))
    | (rintro ⟨_, _, rfl, _⟩; exact ht)

theorem FreshExec.link_tag {cfg : Cfg} {C : Conf α} (hx : FreshExec cfg n h C) (m : Nat) : (C.s.heap.next m).tag = 0 := by
  induction hx generalizing m with
  | refl =>
    show ((Heap.initial n : Heap α).next m).tag = 0
    unfold Heap.initial
    induction n generalizing m with
    | zero => rfl
    | succ k ih => simp only [Heap.addNodes, Heap.deallocUnsafe, Heap.setNextPtr, Heap.malloc, upd]; split <;> (try split) <;> simp_all
  | step _ hs _ ih => exact tstep_tag ih hs m

/-- **C51.** In a stack with compressed pointers the word of a link is a plain pointer: `get_ptr` does not change it. (The stack declares
the link as a plain handle, the freelist as a tagged one.) -/
theorem stack_link_plain {addr : Nat → BitVec 64} {nodeAt : BitVec 64 → Nat} {limit : Nat}
    (h48 : ∀ n < limit, Fits (addr n)) (h0 : ∀ n < limit, addr n ≠ 0#64) (hinv : ∀ n < limit, nodeAt (addr n) = n)
    {Cw : SConf (compressedRep addr nodeAt limit).K α} (hn : n ≤ limit) (hx : WordExec (compressedRep addr nodeAt limit) n h Cw)
    {m : Nat} (hm : m < Cw.s.mem.nalloc) : Cw.s.mem.next m = extractPtr (Cw.s.mem.next m) := by
  have hf := compressedRep_faithful h48 h0 hinv
  obtain ⟨C, hx, hr⟩ := stack_words_simulated hf hn hx
  have hN := hr.st.mem.nalloc ▸ hm
  rw [hr.st.mem.next m hN]
  have h1 := hx.link_tag m
  have h2 := hr.st.mem.okNext m hN
  have h3 := hf.ptr (h2.mono hr.st.mem.limit)
  refine Eq.trans ?_ h3.symm
  show packPtr .little _ (BitVec.ofNat 16 (C.s.heap.next m).tag) = _
  rw [h1]
  refine packPtr_zero ?_
  cases h4 : (C.s.heap.next m).ptr with
  | none => exact (show (0#64).toNat < 2 ^ 48 by decide)
  | some k => exact h48 k ((h2.mono hr.st.mem.limit).1 k h4)

end Verif.Stack
