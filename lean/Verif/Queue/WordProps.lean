import Verif.WordReps
import Verif.Queue.WordSim
import Verif.Queue.Safety
import Verif.Queue.Observe
import Verif.Queue.Progress
import Verif.Queue.Solo

/-!
# Queue on stored words: simulation of executions, and what follows (C51)

No further code of /repo is modelled here.
-/

namespace Verif.Queue
open Lin

variable {α : Type} {R : Rep} {n : Nat} {h : History (Op α) (Ret α)} {Cw : SConf R.K α}

/-- Configurations that correspond to each other. -/
structure ConfRel (R : Rep) (C : Conf α) (Cw : SConf R.K α) : Prop where
  st : StRel R C.s Cw.s
  pc : ∀ t, PCAt R C.s (C.pc t) (Cw.pc t)

theorem ConfRel.initial (hf : R.Faithful) (hn : n + 1 ≤ R.limit) : ConfRel R (Conf.initial R.cfg n : Conf α) (SConf.initial R n) where
  st := by
    have hm := (MemRel.initial (α := α) hf hn).1
    have hL := hm.limit
    have hd : (R.K.node (R.K.ptr (SMem.initial R (n + 1) : SMem R.K α).pool)).getD 0 = (Heap.initial n : Heap α).nalloc := by
      rw [hm.pool, hf.node (hm.okPool.mono hL)]; rfl
    have hp : (Heap.initial (n + 1) : Heap α).pool.ptr = some (Heap.initial n : Heap α).nalloc := rfl
    simp only [SConf.initial, Conf.initial, hd]
    generalize (Heap.initial n : Heap α).nalloc = d at hp
    generalize (Heap.initial (n + 1) : Heap α) = H at hm hp hL
    generalize (SMem.initial R (n + 1) : SMem R.K α) = m at hm
    have hdl : d < H.nalloc := hm.okPool.1 d hp
    have h0 : R.Ok H.nalloc ⟨some d, 0⟩ := ⟨okPtr.some hdl, hf.pos⟩
    have h1 : MemRel R { H with pool := ⟨(H.next d).ptr, R.cfg.nextTag H.pool.tag⟩, poolVer := H.poolVer + 1 }
        { m with pool := R.K.pack (R.K.ptr (m.next d)) (R.K.next (R.K.tag m.pool)), poolVer := m.poolVer + 1 } := by
      refine { hm with pool := ?_, poolVer := by simp [hm.poolVer], okPool := ⟨(hm.okNext d hdl).1, hf.nextTag_lt _⟩, tag := ?_ }
      · simp only [hm.pool, hf.nextTag hm.okPool, hm.next d hdl, hf.ptr ((hm.okNext d hdl).mono hL)]; rfl
      · show (H.pool.tag + 1) % R.M = (H.poolVer + 1) % R.M
        rw [hm.tag]; simp
    have h2 := h1.setNext (n := d) (v := ⟨none, 0⟩) ⟨okPtr.none, hf.pos⟩ (upd H.nver d 0)
    simp only [St.ofHeap, Heap.allocUnsafe, hp, SSt.ofMem, hm.nver]
    exact ⟨h2, rfl, rfl, h0, (Nat.zero_mod _).symm, rfl, rfl, h0, (Nat.zero_mod _).symm⟩
  pc _ := .idle

theorem conf_step (hf : R.Faithful) {C : Conf α} (hr : ConfRel R C Cw) {t : Nat} {ch : SChoice R.K (Op α) α} {w' q' e}
    (hs : ststep R t Cw.s (Cw.pc t) ch = some (w', q', e)) (hok : sokFresh R Cw.s (Cw.pc t) ch) :
    ∃ s' p', tstep R.cfg t C.s (C.pc t) (choiceOf ch) = some (s', p', e) ∧ okFresh R.cfg C.s (C.pc t) (choiceOf ch) ∧
      ConfRel R ⟨s', upd C.pc t p'⟩ ⟨w', upd Cw.pc t q'⟩ := by
  obtain ⟨s', p', h1, h2, h3, h4⟩ := step_sim hf hr.st (hr.pc t) hok hs
  refine ⟨s', p', h1, fresh_of hf hr.st (hr.pc t) hok, h2, fun u => ?_⟩
  by_cases hu : u = t
  · subst hu; simpa using h3
  · simp only [upd_ne _ _ _ hu]
    exact (hr.pc u).mono h4.1.1 h4.1.2 h4.2.1 h4.2.2

/-- **C51.** Every execution on words is an execution of the machine of `Queue/Model`, with the same history. -/
theorem queue_words_simulated (hf : R.Faithful) (hn : n + 1 ≤ R.limit) (hx : WordExec R n h Cw) :
    ∃ C, FreshExec R.cfg n h C ∧ ConfRel R C Cw := by
  induction hx with
  | refl => exact ⟨_, .refl _, .initial hf hn⟩
  | @step h Cw t ch w' q' e _ hs hok ih =>
    obtain ⟨C, hx, hr⟩ := ih
    obtain ⟨s', p', h1, h2, h3⟩ := conf_step hf hr hs hok
    exact ⟨_, .step hx h1 h2, h3⟩

/-- **C51 (linearizability on words).** -/
theorem queue_words_linearizable (hf : R.Faithful) (hn : n + 1 ≤ R.limit) (hx : WordExec R n h Cw) :
    Linearizable (spec α R.fixed) h := by
  obtain ⟨C, hx, -⟩ := queue_words_simulated hf hn hx
  exact queue_linearizable hx

/-- **C51 (no undefined behaviour on words).** -/
theorem queue_words_no_undefined_behaviour (hf : R.Faithful) (hn : n + 1 ≤ R.limit) (hx : WordExec R n h Cw) (t : Nat) :
    Cw.pc t ≠ .err := by
  obtain ⟨C, hx, hr⟩ := queue_words_simulated hf hn hx
  intro he
  have h1 := hr.pc t
  have h2 := queue_no_undefined_behaviour hx t
  rw [he] at h1
  generalize C.pc t = p at h1 h2
  cases h1
  exact h2 rfl

/-- The contents of a queue on words: the payloads of the nodes after the one `head_` points to, following handles. -/
def HoldsW (R : Rep) (s : SSt R.K α) (vs : List α) : Prop :=
  ∃ d S, R.K.node (R.K.ptr s.head) = some d ∧ Linked R s.mem (R.K.ptr (s.mem.next d)) S ∧ S.map s.mem.data = vs.map some

theorem StRel.holds (hf : R.Faithful) {s : St α} {w : SSt R.K α} (hs : StRel R s w) {vs : List α} (hv : Holds s vs) : HoldsW R w vs := by
  obtain ⟨d, S, h1, h2, h3⟩ := hv
  have hL := hs.mem.limit
  have hd := hs.okHead.1 d h1
  have ho := hs.mem.okNext d hd
  refine ⟨d, S, by rw [hs.head, hf.node (hs.okHead.mono hL), h1], ?_, by rw [hs.mem.data]; exact h3⟩
  rw [hs.mem.next d hd, hf.ptr (ho.mono hL)]
  exact hs.mem.linked hf h2 ho.1

/-- **C51 (conservation on words).** When no call is in progress, the list of nodes reached from the word `head_` holds what was
accepted and not handed out. -/
theorem queue_words_conservation (hf : R.Faithful) (hn : n + 1 ≤ R.limit) (hx : WordExec R n h Cw) (hq : ∀ t, Cw.pc t = .idle) :
    ∃ vs, HoldsW R Cw.s vs ∧ (delivered h ++ vs).Perm (accepted h) := by
  obtain ⟨C, hx, hr⟩ := queue_words_simulated hf hn hx
  have hq' : ∀ t, C.pc t = .idle := by
    intro t
    have h1 := hr.pc t
    rw [hq t] at h1
    generalize C.pc t = p at h1 ⊢
    cases h1
    rfl
  obtain ⟨vs, h1, h2⟩ := queue_conservation hx hq'
  exact ⟨vs, hr.st.holds hf h1, h2⟩

/-! ### Progress -/

/-- Spurious failures on words. -/
def spuriousW {K : Words} : SPC K α → SChoice K (Op α) α → Bool
  | .eHead, _ => false
  | _, .spur => true
  | _, _ => false

theorem spurious_of {N pv hv tv : Nat} {p : PC α} {q : SPC R.K α} (hp : PCRel R N pv hv tv p q) (ch : SChoice R.K (Op α) α) :
    spurious p (choiceOf ch) = spuriousW q ch := by
  cases hp <;> cases ch <;> rfl

/-- **C51 (lock-freedom on words).** The bound of `queue_lock_free`. -/
theorem queue_words_lock_free (hf : R.Faithful) (hn : n + 1 ≤ R.limit) {T k f : Nat}
    (hx : Counted (smach α R) (sokFresh R) spuriousW T (SConf.initial R n) h Cw k f) : k ≤ callCosts (charge T) h + 5 * f := by
  have : ∃ C, Counted (mach α R.cfg) (okFresh R.cfg) spurious T (Conf.initial R.cfg n) h C k f ∧ ConfRel R C Cw := by
    induction hx with
    | refl => exact ⟨_, .refl, .initial hf hn⟩
    | @step h Cw t ch w' q' e k f _ ht hs hok hsp ih =>
      obtain ⟨C, hx, hr⟩ := ih
      obtain ⟨s', p', h1, h2, h3⟩ := conf_step hf hr hs hok
      exact ⟨_, .step hx ht h1 h2 (by rw [spurious_of (hr.pc t), hsp]), h3⟩
    | @fail h Cw t ch w' q' e k f _ ht hs hok hsp ih =>
      obtain ⟨C, hx, hr⟩ := ih
      obtain ⟨s', p', h1, h2, h3⟩ := conf_step hf hr hs hok
      exact ⟨_, .fail hx ht h1 h2 (by rw [spurious_of (hr.pc t), hsp]), h3⟩
  obtain ⟨C, hx, -⟩ := this
  exact queue_lock_free hx

/-- If the machine on pairs can make an ordinary step, so can the machine on words. -/
theorem step_enabled (hf : R.Faithful) {t : Nat} {s : St α} {w : SSt R.K α} (hs : StRel R s w) {p : PC α} {q : SPC R.K α}
    (hp : PCAt R s p q) (hroom : R.fixed = true ∨ s.heap.nalloc < R.limit) {c : QChoice α} (hc : plain c) {x}
    (hst : tstep R.cfg t s p c = some x) : ∃ ch y, (ch = .go ∨ ∃ v, ch = .garbage v) ∧ ststep R t w q ch = some y := by
  have hL := hs.mem.limit
  have triv : (∃ y, ststep R t w q .go = some y) →
      ∃ ch y, (ch = .go ∨ ∃ v, ch = .garbage v) ∧ ststep R t w q ch = some y := fun ⟨y, h⟩ => ⟨.go, y, .inl rfl, h⟩
  cases hp with
  | @alloc b v a a' h1 =>
    cases c with
    | base c =>
      cases c <;> simp only [plain] at hc
      simp only [tstep] at hst
      cases ha : aStep R.cfg b s.heap a (Choice.go : Choice (Op α)) with
      | none => simp [ha] at hst
      | some y =>
        obtain ⟨⟨m, r⟩, hy⟩ := saStep_enabled hf hs.mem h1 hroom ha
        refine triv ?_
        simp only [ststep, hy]
        cases r <;> exact ⟨_, rfl⟩
    | _ => simp [tstep] at hst
  | @free k n d d' h1 h2 h3 =>
    obtain ⟨⟨m, r⟩, hy⟩ := sdStep_enabled (O := Op α) R w.mem n d'
    refine triv ?_
    simp only [ststep, hy]
    cases r <;> exact ⟨_, rfl⟩
  | idle => cases c <;> (try (rename_i c; cases c)) <;> simp [tstep, plain] at hst hc
  | err => cases c <;> simp [tstep] at hst
  | constr b v h1 => refine triv ?_; simp only [ststep]; split <;> exact ⟨_, rfl⟩
  | pNext h1 h2 => refine triv ?_; simp only [ststep]; split <;> exact ⟨_, rfl⟩
  | pCheck h1 h2 h3 => refine triv ?_; simp only [ststep]; split <;> exact ⟨_, rfl⟩
  | pCas h1 h2 h3 => refine triv ?_; simp only [ststep]; split <;> (try split) <;> exact ⟨_, rfl⟩
  | cNext h1 h2 => refine triv ?_; simp only [ststep]; split <;> exact ⟨_, rfl⟩
  | cCheck h1 h2 h3 => refine triv ?_; simp only [ststep]; split <;> exact ⟨_, rfl⟩
  | @cData H H' y h1 h2 =>
    cases c with
    | base c =>
      cases c <;> simp only [plain] at hc
      refine triv ?_
      simp only [ststep, hs.mem.data, hs.headVer, h1.ver]
      simp only [tstep] at hst
      cases hd : s.heap.data y with
      | some v => exact ⟨_, rfl⟩
      | none =>
        simp [hd] at hst
        simp [hst.1]
    | garbage v =>
      refine ⟨.garbage v, ?_⟩
      simp only [ststep, hs.headVer, h1.ver]
      simp only [tstep] at hst
      by_cases hv : s.headVer = H.ver
      · simp [hv] at hst
      · exact ⟨_, .inr ⟨v, rfl⟩, if_neg hv⟩
    | torn x => exact hc.elim
  | @cCas v H H' y h1 h2 =>
    refine triv ?_
    simp only [ststep]
    by_cases he : w.head = H'.v
    · rw [if_pos he]
      rw [hs.head, h1.val, hf.eq_iff (hs.okHead.mono hL) (h1.ok.mono hL)] at he
      rw [h1.val, hf.node (h1.ok.mono hL)]
      cases hp : H.v.ptr with
      | some m => exact ⟨_, rfl⟩
      | none =>
        cases c with
        | base c =>
          cases c <;> simp only [plain] at hc
          simp [tstep, he, hp] at hst
        | garbage v => simp [tstep] at hst
        | torn x => exact hc.elim
    · exact ⟨_, if_neg he⟩
  | rsv k h1 =>
    cases k with
    | zero => exact triv ⟨_, rfl⟩
    | succ k =>
      rcases hroom with h2 | h2
      · rw [h1] at h2; cases h2
      · exact triv (by simp [ststep, hs.mem.nalloc, h2])
  | _ => exact triv ⟨_, rfl⟩

/-- **C51 (never stuck).** A thread that is in a call can make an ordinary step, as long as the allocator has memory. -/
theorem queue_words_enabled [Nonempty α] (hf : R.Faithful) (hn : n + 1 ≤ R.limit) (hx : WordExec R n h Cw) {t : Nat}
    (ht : Cw.pc t ≠ .idle) (hroom : R.fixed = true ∨ Cw.s.mem.nalloc < R.limit) :
    ∃ ch y, (ch = .go ∨ ∃ v, ch = .garbage v) ∧ ststep R t Cw.s (Cw.pc t) ch = some y := by
  obtain ⟨C, hx, hr⟩ := queue_words_simulated hf hn hx
  obtain ⟨g, c, hi, -⟩ := hx.inv
  have h1 : C.pc t ≠ .idle := by
    intro h1
    have h2 := hr.pc t
    rw [h1] at h2
    generalize hq : Cw.pc t = q at h2
    cases h2
    exact ht hq
  obtain ⟨c, s', p', e, hc, h2⟩ := go_enabled (t := t) (hi.loc t) h1
  exact step_enabled hf hr.st (hr.pc t) (hr.st.mem.nalloc ▸ hroom) hc h2

end Verif.Queue
