import Verif.Queue.Progress

/-!
# Queue: a thread running alone, and why compare-exchanges fail (C32)
-/

namespace Verif.Queue
open Lin

variable {α : Type} {cfg : Cfg} {s : St α} {t : Nat} {n : Nat} {h : History (Op α) (Ret α)} {C : Conf α}

/-! ### Bounds -/

/-- The most steps a call can need when its thread is left alone, at whatever point of the call that happens. -/
def soloBound : Op α → Nat
  | .push _ _ => 17
  | .pop => 19
  | .empty => 3
  | .reserve k => 2 + 4 * k

/-- The PCs a call goes through. -/
def Shape (o : Op α) : PC α → Prop
  | .alloc _ _ _ | .constr _ _ _ | .nload _ _ _ | .nstore _ _ _ _ | .pTail _ | .pNext _ _ | .pCheck _ _ _ | .pCas _ _ _
  | .swing (.retryPush _) _ _ | .swing .donePush _ _ => ∃ b v, o = .push b v
  | .swing .retryPop _ _ | .cHead | .cTail _ | .cNext _ _ | .cCheck _ _ _ | .cData _ _ | .cCas _ _ _ | .cDestroy _ _
  | .free (.pop _) _ _ => o = .pop
  | .eHead | .eTail _ | .eHead2 _ => o = .empty
  | .rsv j => ∃ k, o = .reserve k ∧ j ≤ k
  | .free (.rsv j) _ _ => ∃ k, o = .reserve k ∧ j + 1 ≤ k
  | .idle | .ret _ | .err => True

theorem shape_call {o : Op α} {p} (ho : start cfg o = some p) : Shape o p := by
  cases o with
  | reserve k => simp [start] at ho; obtain ⟨_, rfl⟩ := ho; simp [Shape]
  | _ => simp [start] at ho; subst ho; simp [Shape]

theorem shape_keep {o : Op α} {p p' : PC α} {ch s'} (ht : Trans cfg t s p ch s' p' none) (hp : Shape o p) : Shape o p' := by
  cases ht with
  | @pCheck n T N => unfold pBranch; split <;> exact hp
  | @cCheck H T N => unfold cBranch; (repeat' split) <;> first | exact hp | trivial
  | @swing k => cases k <;> first | exact hp | trivial
  | @swingFail k => cases k <;> first | exact hp | trivial
  | @freeMore k => cases k <;> exact hp
  | @freeDone k =>
    cases k with
    | pop => trivial
    | rsv j => obtain ⟨k, rfl, h⟩ := hp; exact ⟨k, rfl, by omega⟩
  | rsv => obtain ⟨k, rfl, h⟩ := hp; exact ⟨k, rfl, h⟩
  | _ => first | exact hp | trivial

theorem shape_of_pending (hx : FreshExec cfg n h C) {i o} (hp : Pending h t i o) : Shape o (C.pc t) :=
  hx.pending_inv (H := h) (lawful cfg) Shape
    (fun h C t ch s' p' o _ hs _ _ => by
      have ht := trans_of_tstep hs
      cases ht with
      | call ho => exact shape_call ho)
    (fun h C t ch s' p' o _ hs _ _ hg => shape_keep (trans_of_tstep hs) hg)
    (List.prefix_refl _) hp

theorem cost_le {p : PC α} {o : Op α} (hsh : Shape o p) (hp : p ≠ .idle) (hr : ∀ r, p ≠ .ret r) :
    cost 0 s p ≤ soloBound o := by
  have h1 := aCost_le 0 s.heap.pool
  have h2 := dCost_le 0 s.heap.pool
  have h3 := lg_le s
  have h4 := eg_le s
  cases p with
  | idle => exact absurd rfl hp
  | ret r => exact absurd rfl (hr r)
  | err => simp [cost]
  | alloc b v a => have := h1 a; obtain ⟨b, v, rfl⟩ := hsh; simp only [cost, soloBound, pushB]; omega
  | swing k T y =>
    cases k with
    | retryPush => obtain ⟨b, v, rfl⟩ := hsh; simp only [cost, soloBound, pushB, pushR]; split <;> omega
    | donePush => obtain ⟨b, v, rfl⟩ := hsh; simp only [cost, soloBound]; omega
    | retryPop => cases hsh; simp only [cost, soloBound, popB, popR]; split <;> omega
  | free k m d =>
    have := h2 d
    cases k with
    | pop v => cases hsh; simp only [cost, fCost, soloBound]; omega
    | rsv j => obtain ⟨k, rfl, hj⟩ := hsh; simp only [cost, fCost, soloBound]; omega
  | rsv j => obtain ⟨k, rfl, hj⟩ := hsh; simp only [cost, soloBound]; omega
  | eHead => cases hsh; simp [cost, soloBound]
  | eHead2 => cases hsh; simp [cost, soloBound]
  | eTail => cases hsh; simp [cost, soloBound]
  | constr | nload | nstore | pTail | pNext | pCheck | pCas =>
    obtain ⟨b, v, rfl⟩ := hsh; simp only [cost, soloBound, pushB, pushR]; (repeat' split) <;> omega
  | cHead | cTail | cNext | cCheck | cData | cCas | cDestroy =>
    cases hsh; simp only [cost, soloBound, popB, popR]; (repeat' split) <;> omega

/-- Steps within a call, no spurious failure. -/
def okSolo (cfg : Cfg) (s : St α) (p : PC α) (ch : QChoice α) : Prop :=
  okFresh cfg s p ch ∧ spurious p ch = false ∧ ∀ o, ch ≠ .base (.call o)

theorem cost_step {g : G} {σ st} (hi : SI cfg s g σ) {p : PC α} (hl : Local cfg s g.F g.L (g.held t) st p)
    {ch s' p' e} (hok : okSolo cfg s p ch) (ht : Trans cfg t s p ch s' p' e) : cost 0 s' p' + 1 ≤ cost 0 s p := by
  have h0 : callCosts (opCost 0) e.toList = 0 := by
    cases ht <;> first | rfl | exact absurd rfl (hok.2.2 _)
  have := own_cost (W := 0) hi hl hok.1 ht hok.2.1
  unfold Pays at this
  omega

theorem alone_cost {k s' p' h'} (hx : FreshExec cfg n h C)
    (ha : Alone (mach α cfg) (okSolo cfg) t k C.s (C.pc t) h' s' p') : k + cost 0 s' p' ≤ cost 0 C.s (C.pc t) := by
  generalize hs0 : C.s = s₀ at ha
  generalize hp0 : C.pc t = p₀ at ha
  induction ha generalizing h C with
  | nil => omega
  | @cons k s p ch s₁ p₁ e h₁ s₂ p₂ hs hok _ ih =>
    subst hs0 hp0
    obtain ⟨g, c, hi, _⟩ := hx.inv
    have h1 := cost_step hi.si (hi.loc t) hok (trans_of_tstep hs)
    have h2 := ih (MSteps.step hx hs hok.1) rfl (by simp)
    omega

/-- **C32 (a thread running alone, bound).** Take any reachable configuration, other threads stopped anywhere -- for instance
half-way through a push -- and a call in progress. However the thread goes on alone, it makes at most `soloBound` steps. -/
theorem queue_solo_bounded (hx : FreshExec cfg n h C) {i o} (hp : Pending h t i o) {k s' p' h'}
    (ha : Alone (mach α cfg) (okSolo cfg) t k C.s (C.pc t) h' s' p') : k ≤ soloBound o := by
  have h1 := alone_cost hx ha
  have hb : 1 ≤ soloBound o := by cases o <;> simp only [soloBound] <;> omega
  by_cases h2 : C.pc t = .idle
  · rw [h2] at h1; simp [cost] at h1; omega
  · by_cases h3 : ∃ r, C.pc t = .ret r
    · obtain ⟨r, h3⟩ := h3
      rw [h3] at h1; simp [cost] at h1; omega
    · have := cost_le (s := C.s) (shape_of_pending hx hp) h2 (fun r hr => h3 ⟨r, hr⟩)
      omega

/-! ### Completion -/

/-- The version of the link of the node a snapshot points to. -/
def linkVer (s : St α) (T : Snap) : Nat := s.heap.nver (T.v.ptr.getD 0)

/-- The copies the thread has of `head_`, `tail_`, links and `pool_` have not wrapped. -/
def SnapFresh (cfg : Cfg) (s : St α) : PC α → Prop
  | .alloc _ _ (.test o) | .alloc _ _ (.cas o _) => young cfg s.heap.poolVer o
  | .pNext _ T | .swing _ T _ => young cfg s.tailVer T
  | .pCheck _ T N | .pCas _ T N => young cfg s.tailVer T ∧ young cfg (linkVer s T) N
  | .cTail H | .cData H _ | .cCas H _ _ => young cfg s.headVer H
  | .cNext H T | .cCheck H T _ => young cfg s.headVer H ∧ young cfg s.tailVer T
  | _ => True

theorem SnapFresh.fresh {p : PC α} (h : SnapFresh cfg s p) : fresh cfg s p := by
  cases p with
  | alloc b k a => cases a <;> first | exact h | trivial
  | pCheck => exact h.1
  | pCas n T N => intro x hx; have := h.2; simp only [young, linkVer, hx] at this; exact this
  | cCheck => exact h.1
  | _ => first | exact h | trivial

/-- Steps that are neither failures nor exceptions; a racing read of a payload may return anything. -/
def plain : QChoice α → Prop
  | .base .go => True
  | .garbage _ => True
  | _ => False

theorem SnapFresh.step {p p' : PC α} {ch s' e} (ht : Trans cfg t s p ch s' p' e) (hch : plain ch) (hp : SnapFresh cfg s p) :
    SnapFresh cfg s' p' := by
  cases ht with
  | @allocMore b k a ch h a' ha =>
    cases ch <;> try exact hch.elim
    cases a with
    | load => simp [aStep] at ha; obtain ⟨rfl, rfl⟩ := ha; exact young_new _ _ _ rfl
    | test o =>
      simp only [aStep] at ha
      split at ha
      · split at ha <;> simp at ha
      · simp at ha; obtain ⟨rfl, rfl⟩ := ha; exact hp
    | cas o nx =>
      simp only [aStep] at ha
      split at ha
      · split at ha <;> simp at ha
      · simp at ha; obtain ⟨rfl, rfl⟩ := ha; exact young_new _ _ _ rfl
  | call => exact hch.elim
  | @pCheck n T N => unfold pBranch; split; exact hp; exact hp.1
  | @cCheck H T N => unfold cBranch; (repeat' split) <;> first | trivial | exact hp.2 | exact hp.1
  | @swing k => cases k <;> trivial
  | @swingFail k => cases k <;> trivial
  | @freeDone k => cases k <;> trivial
  | pTail => exact young_new _ _ _ rfl
  | cHead => exact young_new _ _ _ rfl
  | @pNext n T x hx => exact ⟨hp, young_new _ _ _ (by simp [linkVer, hx, St.nextSnap])⟩
  | pNextTorn => exact hch.elim
  | pCas => exact hp.1
  | cTail => exact ⟨hp, young_new _ _ _ rfl⟩
  | cNextTorn => exact hch.elim
  | _ => first | exact hp | trivial

/-- Nothing ever blocks. -/
theorem go_enabled [Nonempty α] {F L l st} {p : PC α} (hl : Local cfg s F L l st p) (hp : p ≠ .idle) :
    ∃ ch s' p' e, plain ch ∧ tstep cfg t s p ch = some (s', p', e) := by
  cases p with
  | idle => exact absurd rfl hp
  | err => exact hl.elim
  | alloc b k a =>
    obtain ⟨h', r, h1⟩ := aStep_go (Op := Op α) b hl.2.2
    refine ⟨.base .go, ?_⟩
    simp only [tstep, h1]
    cases r <;> exact ⟨_, _, _, trivial, rfl⟩
  | free k m d =>
    obtain ⟨h', r, h1⟩ := dStep_go (Op := Op α) s.heap m d
    refine ⟨.base .go, ?_⟩
    simp only [tstep, h1]
    cases r <;> exact ⟨_, _, _, trivial, rfl⟩
  | constr b k m => refine ⟨.base .go, ?_⟩; simp only [tstep]; split <;> exact ⟨_, _, _, trivial, rfl⟩
  | pNext m T =>
    refine ⟨.base .go, ?_⟩
    cases h1 : T.v.ptr <;> simp only [tstep, h1] <;> exact ⟨_, _, _, trivial, rfl⟩
  | pCheck m T N => refine ⟨.base .go, ?_⟩; simp only [tstep]; split <;> exact ⟨_, _, _, trivial, rfl⟩
  | pCas m T N => refine ⟨.base .go, ?_⟩; simp only [tstep]; split <;> (try split) <;> exact ⟨_, _, _, trivial, rfl⟩
  | cNext H T =>
    refine ⟨.base .go, ?_⟩
    cases h1 : H.v.ptr <;> simp only [tstep, h1] <;> exact ⟨_, _, _, trivial, rfl⟩
  | cCheck H T N => refine ⟨.base .go, ?_⟩; simp only [tstep]; split <;> exact ⟨_, _, _, trivial, rfl⟩
  | cData H y =>
    cases h1 : s.heap.data y with
    | some v => refine ⟨.base .go, ?_⟩; simp only [tstep, h1]; exact ⟨_, _, _, trivial, rfl⟩
    | none =>
      by_cases h2 : s.headVer = H.ver
      · refine ⟨.base .go, ?_⟩; simp only [tstep, h1, if_pos h2]; exact ⟨_, _, _, trivial, rfl⟩
      · obtain ⟨v⟩ := ‹Nonempty α›
        refine ⟨.garbage v, ?_⟩; simp only [tstep, if_neg h2]; exact ⟨_, _, _, trivial, rfl⟩
  | cCas H y v =>
    obtain ⟨_, _, x, hH, _⟩ := hl
    have h1 := hH.2.2.1
    refine ⟨.base .go, ?_⟩
    simp only [tstep, h1]; split <;> exact ⟨_, _, _, trivial, rfl⟩
  | rsv j => refine ⟨.base .go, ?_⟩; cases j <;> exact ⟨_, _, _, trivial, rfl⟩
  | _ => exact ⟨.base .go, _, _, _, trivial, rfl⟩

/-- **C32 (a thread running alone, completion).** Take any reachable configuration, other threads stopped anywhere, and a call
in progress. The thread alone, without spurious failures and exceptions, completes the call in at most `soloBound` steps. (If the
thread has an old copy of a word, its tag must not have wrapped.) -/
theorem queue_solo_completes [Nonempty α] (hx : FreshExec cfg n h C) {i o} (hp : Pending h t i o)
    (hsn : SnapFresh cfg C.s (C.pc t)) :
    ∃ k s' r, k ≤ soloBound o ∧
      Alone (mach α cfg) (fun s p ch => okFresh cfg s p ch ∧ plain ch) t k C.s (C.pc t) [.res t r] s' .idle := by
  have hplain : ∀ {p : PC α} {ch : QChoice α}, plain ch → spurious p ch = false ∧ ∀ o, ch ≠ .base (.call o) := by
    intro p ch hch
    cases ch with
    | base c => cases c <;> first | exact hch.elim | (cases p <;> simp [spurious])
    | garbage v => cases p <;> simp [spurious]
    | torn x => exact hch.elim
  have hidle : C.pc t ≠ .idle := by
    intro hid
    exact hx.pending_inv (H := h) (lawful cfg) (fun _ p => p ≠ .idle)
      (fun h C t ch s' p' o _ hs _ _ => by
        have ht := trans_of_tstep hs
        cases ht with
        | call ho => exact (start_ne ho).1)
      (fun h C t ch s' p' o _ hs _ _ hg => by
        have ht := trans_of_tstep hs
        by_cases hpp : C.pc t = p'
        · rw [← hpp]; exact hg
        · exact not_idle_of_trans ht (by simp) hpp)
      (List.prefix_refl _) hp hid
  obtain ⟨k, s', r, hk, ha⟩ := Alone.terminates (m := mach α cfg) (ok := fun s p ch => okFresh cfg s p ch ∧ plain ch) (t := t)
    (fun s p => (∃ h, FreshExec cfg n h ⟨s, upd C.pc t p⟩) ∧ SnapFresh cfg s p) (cost 0)
    (fun s p hi hp => by
      obtain ⟨⟨h, hx⟩, hf⟩ := hi
      obtain ⟨g, c, hi, _⟩ := hx.inv
      have hl : Local cfg s g.F g.L (g.held t) (c.status t) p := by simpa using hi.loc t
      obtain ⟨ch, s', p', e, hch, hs⟩ := go_enabled (t := t) hl hp
      have hok : okFresh cfg s p ch := hf.fresh
      have ht := trans_of_tstep hs
      have hd := cost_step hi.si hl ⟨hok, hplain hch⟩ ht
      refine ⟨ch, s', p', e, hs, ⟨hok, hch⟩, hd, ?_⟩
      cases e with
      | none =>
        refine .inr ⟨rfl, ?_, ⟨h, ?_⟩, hf.step ht hch⟩
        · by_cases hpp : p = p'
          · rw [← hpp]; exact hp
          · exact not_idle_of_trans ht (by simp) hpp
        · have := MSteps.step (t := t) (C := ⟨s, upd C.pc t p⟩) hx
            (by simp only [upd_self]; exact hs) (by simp only [upd_self]; exact hok)
          simpa [upd_upd] using this
      | some e =>
        rcases lawful cfg _ _ _ _ _ _ _ hs with ⟨h1, _⟩ | ⟨r, _, h2, h3⟩
        · exact absurd h1 hp
        · cases h3; exact .inl ⟨r, h2, rfl⟩)
    ⟨⟨h, by simpa [upd_same] using hx⟩, hsn⟩ hidle
  exact ⟨k, s', r, queue_solo_bounded hx hp (ha.mono fun s p ch hc => ⟨hc.1, hplain hc.2⟩), ha⟩

/-! ### Failing compare-exchanges -/

/-- The expected value of the compare-exchange on `head_` the thread is about to make. -/
def casHead : PC α → Option Tagged
  | .cCas H _ _ => some H.v
  | _ => none

/-- The expected value of the compare-exchange on `tail_` the thread is about to make. -/
def casTail : PC α → Option Tagged
  | .swing _ T _ => some T.v
  | _ => none

/-- The expected value of the compare-exchange on `pool_` the thread is about to make. -/
def casPool : PC α → Option Tagged
  | .alloc _ _ (.cas o _) | .free _ _ (.cas o) => some o.v
  | _ => none

/-- The copy of `head_` a thread has. -/
def copyHead : PC α → Option Tagged
  | .cTail H | .cNext H _ | .cCheck H _ _ | .cData H _ | .cCas H _ _ => some H.v
  | _ => none

/-- The copy of `tail_` a thread has. -/
def copyTail : PC α → Option Tagged
  | .pNext _ T | .pCheck _ T _ | .pCas _ T _ | .swing _ T _ | .cNext _ T | .cCheck _ T _ => some T.v
  | _ => none

/-- The copy of `pool_` a thread has. -/
def copyPool : PC α → Option Tagged
  | .alloc _ _ (.test o) | .alloc _ _ (.cas o _) | .free _ _ (.set o) | .free _ _ (.cas o) => some o.v
  | _ => none

theorem casHead_copy {p : PC α} {v} (h : casHead p = some v) : copyHead p = some v := by
  cases p <;> first | exact h | cases h

theorem casTail_copy {p : PC α} {v} (h : casTail p = some v) : copyTail p = some v := by
  cases p <;> first | exact h | cases h

theorem casPool_copy {p : PC α} {v} (h : casPool p = some v) : copyPool p = some v := by
  cases p with
  | alloc b k a => cases a <;> first | exact h | cases h
  | free k m d => cases d <;> first | exact h | cases h
  | _ => cases h

theorem head_changes {p p' : PC α} {ch s' e} (ht : Trans cfg t s p ch s' p' e) (hne : s'.head ≠ s.head) :
    casHead p = some s.head := by
  cases ht with
  | cCas heq => exact congrArg some heq.symm
  | _ => exact absurd rfl hne

theorem tail_changes {p p' : PC α} {ch s' e} (ht : Trans cfg t s p ch s' p' e) (hne : s'.tail ≠ s.tail) :
    casTail p = some s.tail := by
  cases ht with
  | swing heq => exact congrArg some heq.symm
  | _ => exact absurd rfl hne

theorem pool_changes {p p' : PC α} {ch s' e} (ht : Trans cfg t s p ch s' p' e) (hne : s'.heap.pool ≠ s.heap.pool) :
    casPool p = some s.heap.pool := by
  cases ht with
  | allocMore ha => obtain ⟨o, nx, rfl, h1⟩ := aStep_pool ha hne; exact congrArg some h1
  | allocGot ha => obtain ⟨o, nx, rfl, h1⟩ := aStep_pool ha hne; exact congrArg some h1
  | allocNull ha => obtain ⟨o, nx, rfl, h1⟩ := aStep_pool ha hne; exact congrArg some h1
  | allocBad ha => obtain ⟨o, nx, rfl, h1⟩ := aStep_pool ha hne; exact congrArg some h1
  | freeMore ha => obtain ⟨o, rfl, h1⟩ := dStep_pool ha hne; exact congrArg some h1
  | freeDone ha => obtain ⟨o, rfl, h1⟩ := dStep_pool ha hne; exact congrArg some h1
  | _ => exact absurd rfl hne

theorem copy_start {o : Op α} {p} (ho : start cfg o = some p) : copyHead p = none ∧ copyTail p = none ∧ copyPool p = none := by
  cases o with
  | reserve k => simp [start] at ho; obtain ⟨_, rfl⟩ := ho; simp [copyHead, copyTail, copyPool]
  | _ => simp [start] at ho; subst ho; simp [copyHead, copyTail, copyPool]

variable {ok : St α → PC α → QChoice α → Prop}

/-- **C32 (failures of compare-exchanges on `head_`).** If thread `t` is about to compare `head_` with `v` and `head_` is
different, then some other thread `u` made a successful compare-exchange of `head_`, from `v` to another value, after `t` copied
`v`. (No assumption on tags.) -/
theorem queue_head_cas_fails (hx : MSteps (mach α cfg) ok (Conf.initial cfg n) h C) {v : Tagged}
    (hv : casHead (C.pc t) = some v) (hne : C.s.head ≠ v) :
    ∃ h₁ C₁ u ch s' p' e h₂, u ≠ t ∧ MSteps (mach α cfg) ok (Conf.initial cfg n) h₁ C₁ ∧ copyHead (C₁.pc t) = some v ∧
      C₁.s.head = v ∧ casHead (C₁.pc u) = some v ∧ tstep cfg u C₁.s (C₁.pc u) ch = some (s', p', e) ∧ s'.head ≠ v ∧
      MSteps (mach α cfg) ok ⟨s', upd C₁.pc u p'⟩ h₂ C ∧ h = h₁ ++ e.toList ++ h₂ := by
  obtain ⟨h₁, C₁, u, ch, s', p', e, h₂, h1, h2, h3, h4, h5, h6, h7, h8, h9⟩ :=
    hx.changed_by_other (fun s => s.head) copyHead t rfl (fun s p ch s' p' e v hs hv => by
      have ht := trans_of_tstep hs
      cases ht with
      | call ho => rw [(copy_start ho).1] at hv; cases hv
      | @pCheck n T N => unfold pBranch at hv; split at hv <;> cases hv
      | @cCheck H T N => unfold cBranch at hv; (repeat' split at hv) <;> first | cases hv; done | exact .inr ⟨hv, rfl⟩
      | @swing k => cases k <;> cases hv
      | @swingFail k => cases k <;> cases hv
      | @freeDone k => cases k <;> cases hv
      | _ => first
        | exact .inr ⟨hv, rfl⟩
        | (simp only [copyHead, Option.some.injEq] at hv; exact .inl hv)
        | simp [copyHead] at hv) (casHead_copy hv) hne
  have h10 := head_changes (trans_of_tstep h5) (by rw [h4]; exact h7)
  exact ⟨h₁, C₁, u, ch, s', p', e, h₂, h1, h2, h3, h4, by rw [h10, h4], h5, h7, h8, h9⟩

/-- **C32 (failures of compare-exchanges on `tail_`).** The same for `tail_`. -/
theorem queue_tail_cas_fails (hx : MSteps (mach α cfg) ok (Conf.initial cfg n) h C) {v : Tagged}
    (hv : casTail (C.pc t) = some v) (hne : C.s.tail ≠ v) :
    ∃ h₁ C₁ u ch s' p' e h₂, u ≠ t ∧ MSteps (mach α cfg) ok (Conf.initial cfg n) h₁ C₁ ∧ copyTail (C₁.pc t) = some v ∧
      C₁.s.tail = v ∧ casTail (C₁.pc u) = some v ∧ tstep cfg u C₁.s (C₁.pc u) ch = some (s', p', e) ∧ s'.tail ≠ v ∧
      MSteps (mach α cfg) ok ⟨s', upd C₁.pc u p'⟩ h₂ C ∧ h = h₁ ++ e.toList ++ h₂ := by
  obtain ⟨h₁, C₁, u, ch, s', p', e, h₂, h1, h2, h3, h4, h5, h6, h7, h8, h9⟩ :=
    hx.changed_by_other (fun s => s.tail) copyTail t rfl (fun s p ch s' p' e v hs hv => by
      have ht := trans_of_tstep hs
      cases ht with
      | call ho => rw [(copy_start ho).2.1] at hv; cases hv
      | @pCheck n T N => unfold pBranch at hv; split at hv <;> exact .inr ⟨hv, rfl⟩
      | @cCheck H T N => unfold cBranch at hv; (repeat' split at hv) <;> first | cases hv; done | exact .inr ⟨hv, rfl⟩
      | @swing k => cases k <;> cases hv
      | @swingFail k => cases k <;> cases hv
      | @freeDone k => cases k <;> cases hv
      | _ => first
        | exact .inr ⟨hv, rfl⟩
        | (simp only [copyTail, Option.some.injEq] at hv; exact .inl hv)
        | simp [copyTail] at hv) (casTail_copy hv) hne
  have h10 := tail_changes (trans_of_tstep h5) (by rw [h4]; exact h7)
  exact ⟨h₁, C₁, u, ch, s', p', e, h₂, h1, h2, h3, h4, by rw [h10, h4], h5, h7, h8, h9⟩

/-- **C32 (failures of compare-exchanges on the freelist).** The same for `pool_`. -/
theorem queue_pool_cas_fails (hx : MSteps (mach α cfg) ok (Conf.initial cfg n) h C) {v : Tagged}
    (hv : casPool (C.pc t) = some v) (hne : C.s.heap.pool ≠ v) :
    ∃ h₁ C₁ u ch s' p' e h₂, u ≠ t ∧ MSteps (mach α cfg) ok (Conf.initial cfg n) h₁ C₁ ∧ copyPool (C₁.pc t) = some v ∧
      C₁.s.heap.pool = v ∧ casPool (C₁.pc u) = some v ∧ tstep cfg u C₁.s (C₁.pc u) ch = some (s', p', e) ∧
      s'.heap.pool ≠ v ∧ MSteps (mach α cfg) ok ⟨s', upd C₁.pc u p'⟩ h₂ C ∧ h = h₁ ++ e.toList ++ h₂ := by
  obtain ⟨h₁, C₁, u, ch, s', p', e, h₂, h1, h2, h3, h4, h5, h6, h7, h8, h9⟩ :=
    hx.changed_by_other (fun s => s.heap.pool) copyPool t rfl (fun s p ch s' p' e v hs hv => by
      have ht := trans_of_tstep hs
      cases ht with
      | call ho => rw [(copy_start ho).2.2] at hv; cases hv
      | @allocMore b k a _ h a' ha =>
        obtain ⟨rfl, rfl | ⟨o, nx, rfl, rfl⟩⟩ := aStep_copy ha
        · simp only [copyPool, Option.some.injEq] at hv; exact .inl hv
        · exact .inr ⟨hv, rfl⟩
      | @freeMore k m d _ h d' hd =>
        obtain ⟨h1, rfl | ⟨o, rfl, rfl⟩⟩ := dStep_copy hd
        · simp only [copyPool, Option.some.injEq] at hv; exact .inl (h1.trans hv)
        · exact .inr ⟨hv, h1⟩
      | @pCheck n T N => unfold pBranch at hv; split at hv <;> cases hv
      | @cCheck H T N => unfold cBranch at hv; (repeat' split at hv) <;> cases hv
      | @swing k => cases k <;> cases hv
      | @swingFail k => cases k <;> cases hv
      | @freeDone k => cases k <;> cases hv
      | _ => simp [copyPool] at hv) (casPool_copy hv) hne
  have h10 := pool_changes (trans_of_tstep h5) (by rw [h4]; exact h7)
  exact ⟨h₁, C₁, u, ch, s', p', e, h₂, h1, h2, h3, h4, by rw [h10, h4], h5, h7, h8, h9⟩

/-- The tail node and the copy of its link a thread has. -/
def copyLink : PC α → Option (Snap × Snap)
  | .pCheck _ T N | .pCas _ T N => some (T, N)
  | _ => none

/-- Links of nodes in the queue are only changed by the compare-exchange in `push`. -/
theorem link_changes {g : G} {σ st} (hi : SI cfg s g σ) {p : PC α} (hl : Local cfg s g.F g.L (g.held t) st p) {x : Nat}
    (hx : g.own x = .str) {p' ch s' e} (ht : Trans cfg t s p ch s' p' e) (hne : s'.heap.nver x ≠ s.heap.nver x) :
    ∃ m T N, p = .pCas m T N ∧ ch = .base .go ∧ e = none ∧ T.v.ptr = some x ∧ s.heap.next x = N.v ∧
      (s'.heap.next x).ptr = some m := by
  have hlt : x < s.heap.nalloc := hi.heap.lt (by simp [hx])
  cases ht with
  | allocMore h | allocGot h | allocNull h | allocBad h => exact absurd ((aStep_tags hi.ntag h).2 x hlt) hne
  | @freeMore k m d ch h d' hd | @freeDone k m d ch h hd =>
    obtain ⟨h1, h2, hdl, _⟩ := hl
    obtain ⟨_, _, _, _, h3⟩ := dStep_inv (t := t) hi.heap (by rw [h1]; simp) h2 hdl hd
    exact absurd (by rw [h3]) hne
  | @nstore b v m o =>
    have h1 : x ≠ m := str_not_held (t := t) hi hx (by rw [hl.1]; simp)
    exact absurd (upd_ne _ _ _ h1) hne
  | rsv => exact absurd (upd_ne _ _ _ (by omega)) hne
  | @pCas m T N y hy heq =>
    by_cases hxy : x = y
    · subst hxy; exact ⟨m, T, N, rfl, rfl, rfl, hy, heq, by simp⟩
    · exact absurd (upd_ne _ _ _ hxy) hne
  | _ => exact absurd rfl hne

theorem link_broken (hx : FreshExec cfg n h C) {T N : Snap} {x : Nat} (hc : copyLink (C.pc t) = some (T, N))
    (hv : (∃ m, C.pc t = .pCas m T N) ∨ N.v.ptr = none ∧ T.ver = C.s.tailVer) (hT : T.v.ptr = some x)
    (hne : C.s.heap.nver x ≠ N.ver) :
    ∃ h₁ C₁ u m T' N' s' p' h₂, u ≠ t ∧ FreshExec cfg n h₁ C₁ ∧ copyLink (C₁.pc t) = some (T, N) ∧
      C₁.s.heap.next x = N.v ∧ C₁.pc u = .pCas m T' N' ∧ T'.v.ptr = some x ∧ N'.v = N.v ∧
      tstep cfg u C₁.s (C₁.pc u) (.base .go) = some (s', p', none) ∧ s'.heap.next x ≠ N.v ∧
      MSteps (mach α cfg) (okFresh cfg) ⟨s', upd C₁.pc u p'⟩ h₂ C ∧ h = h₁ ++ h₂ := by
  induction hx with
  | refl => simp [Conf.initial, copyLink] at hc
  | @step h C u ch s' p' e hx hs hok ih =>
    obtain ⟨g, c, hi, _⟩ := FreshExec.inv (n := n) hx
    by_cases old : copyLink (C.pc t) = some (T, N) ∧ ((∃ m, C.pc t = .pCas m T N) ∨ N.v.ptr = none ∧ T.ver = C.s.tailVer) ∧
        C.s.heap.nver x ≠ N.ver
    · obtain ⟨h₁, C₁, u', m, T', N', s'', p'', h₂, h1, h2, h3, h4, h5, h6, h7, h8, h9, h10, rfl⟩ := ih old.1 old.2.1 old.2.2
      exact ⟨h₁, C₁, u', m, T', N', s'', p'', _, h1, h2, h3, h4, h5, h6, h7, h8, h9, h10.step hs hok, by simp⟩
    · by_cases hut : u = t
      · subst hut
        simp only [upd_self] at hc hv hne
        exfalso
        have hl := hi.loc u
        generalize hp : C.pc u = p at hs hok old hl
        have ht := trans_of_tstep hs
        cases ht with
        | call ho => cases o : (‹Op α›) <;> simp [o, start] at ho <;> (first | subst ho | obtain ⟨_, rfl⟩ := ho) <;> simp [copyLink] at hc
        | @pNext m T₁ y hy =>
          simp only [copyLink, Option.some.injEq, Prod.mk.injEq] at hc
          obtain ⟨rfl, rfl⟩ := hc
          rw [hT] at hy; cases hy; exact hne rfl
        | @pNextTorn m T₁ y w hy =>
          simp only [copyLink, Option.some.injEq, Prod.mk.injEq] at hc
          obtain ⟨rfl, rfl⟩ := hc
          rw [hT] at hy; cases hy; exact hne rfl
        | @pCheck m T₁ N₁ heq =>
          unfold pBranch at hc
          split at hc
          case h_2 => simp [copyLink] at hc
          case h_1 hN =>
            simp only [copyLink, Option.some.injEq, Prod.mk.injEq] at hc
            obtain ⟨rfl, rfl⟩ := hc
            obtain ⟨_, y, hTS, _⟩ := hl
            have hver := cfg_M_or hTS.1 hok (by rw [← hi.si.ttag, ← hTS.2.1, heq])
            exact old ⟨rfl, .inr ⟨hN, hver.symm⟩, hne⟩
        | @cCheck H T₁ N₁ => unfold cBranch at hc; (repeat' split at hc) <;> simp [copyLink] at hc
        | @swing k => cases k <;> cases hc
        | @swingFail k => cases k <;> cases hc
        | @freeDone k => cases k <;> cases hc
        | _ => simp [copyLink] at hc
      · simp only [upd_ne _ _ _ (Ne.symm hut)] at hc hv
        have hl := hi.loc t
        have hmono := (tstep_ver hs).2.1
        have key : C.s.heap.nver x = N.ver ∧ C.s.heap.next x = N.v ∧ N.v.ptr = none ∧ x ∈ g.L := by
          generalize hp : C.pc t = p at hc hv hl old
          cases p with
          | pCheck m T₁ N₁ =>
            simp only [copyLink, Option.some.injEq, Prod.mk.injEq] at hc
            obtain ⟨rfl, rfl⟩ := hc
            obtain ⟨_, y, hTS, hle, hy⟩ := hl
            have h0 := hTS.2.2.1; rw [hT] at h0; cases h0
            obtain ⟨m', hv⟩ | ⟨hv1, hv2⟩ := hv
            · cases hv
            · have hv2 : T₁.ver = s'.tailVer := hv2
              have h1 : T₁.ver = C.s.tailVer := by have := hTS.1; omega
              have h2 : C.s.heap.nver x = N₁.ver := Classical.byContradiction fun h => old ⟨rfl, .inr ⟨hv1, h1⟩, h⟩
              exact ⟨h2, (hy h1).2.1 h2, hv1, hi.si.tail_mem (by rw [hTS.2.2.2.2 h1]; exact hT)⟩
          | pCas m T₁ N₁ =>
            simp only [copyLink, Option.some.injEq, Prod.mk.injEq] at hc
            obtain ⟨rfl, rfl⟩ := hc
            obtain ⟨_, y, hTS, hle, hNv, hy⟩ := hl
            have h0 := hTS.2.2.1; rw [hT] at h0; cases h0
            have h2 : C.s.heap.nver x = N₁.ver := Classical.byContradiction fun h => old ⟨rfl, .inl ⟨_, rfl⟩, h⟩
            obtain ⟨h3, h4⟩ := hy h2
            have h5 := Chain.last_null hi.si.chain h3
            have h6 := hi.si.ntag x
            refine ⟨h2, ?_, by rw [hNv], List.mem_of_getLast? h3⟩
            rw [hNv, ← h2, ← h6]
            cases hn : C.s.heap.next x; rw [hn] at h5; simp only at h5; simp [h5]
          | _ => simp [copyLink] at hc
        obtain ⟨k1, k2, k3, k4⟩ := key
        obtain ⟨m, T', N', h1, rfl, rfl, h2, h3, h4⟩ := link_changes hi.si (hi.loc u) ((hi.si.mem x).2 k4) (trans_of_tstep hs)
          (by rw [k1]; exact hne)
        exact ⟨h, C, u, m, T', N', s', p', [], hut, hx, hc, k2, h1, h2, by rw [← h3, k2], hs,
          fun hq => (by rw [hq, k3] at h4; cases h4), .refl _, by simp⟩

/-- **C32 (failures of the compare-exchange that links a node).** If thread `t` is about to link its node behind `x` and the
link of `x` differs from the copy `t` has, then some other thread `u` linked a node behind `x` after `t` made the copy. -/
theorem queue_link_cas_fails (hx : FreshExec cfg n h C) {m x : Nat} {T N : Snap} (hp : C.pc t = .pCas m T N)
    (hT : T.v.ptr = some x) (hne : C.s.heap.next x ≠ N.v) :
    ∃ h₁ C₁ u m' T' N' s' p' h₂, u ≠ t ∧ FreshExec cfg n h₁ C₁ ∧ copyLink (C₁.pc t) = some (T, N) ∧
      C₁.s.heap.next x = N.v ∧ C₁.pc u = .pCas m' T' N' ∧ T'.v.ptr = some x ∧ N'.v = N.v ∧
      tstep cfg u C₁.s (C₁.pc u) (.base .go) = some (s', p', none) ∧ s'.heap.next x ≠ N.v ∧
      MSteps (mach α cfg) (okFresh cfg) ⟨s', upd C₁.pc u p'⟩ h₂ C ∧ h = h₁ ++ h₂ := by
  refine link_broken hx (by rw [hp]; rfl) (.inl ⟨m, hp⟩) hT fun h2 => hne ?_
  obtain ⟨g, c, hi, _⟩ := hx.inv
  have hl := hi.loc t
  rw [hp] at hl
  obtain ⟨_, y, hTS, hle, hNv, hy⟩ := hl
  have h0 := hTS.2.2.1; rw [hT] at h0; cases h0
  have h5 := Chain.last_null hi.si.chain (hy h2).1
  have h6 := hi.si.ntag x
  rw [hNv, ← h2, ← h6]
  cases hn : C.s.heap.next x; rw [hn] at h5; simp only at h5; simp [h5]

end Verif.Queue
