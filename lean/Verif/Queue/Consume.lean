import Verif.Consume
import Verif.Queue.Solo

/-!
# Queue: `consume_one` and `consume_all` (queue.hpp:522-572)

The queue with these two routines (`Verif.Consume`) on top of the machine of `Queue.Model`.
-/

namespace Verif.Queue
open Lin

variable {α : Type} {cfg : Cfg} {n : Nat}

/-- Result of `pop( element )` as `consume_one` sees it (queue.hpp:525-527). -/
def popVal : Ret α → Option (Option α)
  | .popped v => some v
  | _ => none

/-- Traces of the queue with routines. -/
abbrev CTrace (α : Type) := Trace (Op α) (Ret α) (COp (Op α)) (CRet (Ret α) α)

/-- Configurations of the queue with routines. -/
abbrev CConf (α : Type) := MConf (St α) (CPC (PC α) (CRet (Ret α) α) (CLocal (Op α) (Ret α) α))

/-- `consume_one` and `consume_all` (queue.hpp:522-572). -/
abbrev routine (α : Type) : Routine (Op α) (Ret α) (COp (Op α)) (CRet (Ret α) α) (CLocal (Op α) (Ret α) α) :=
  consumeRoutine (fun _ => .pop) popVal

/-- The machine of a queue with `consume_one` and `consume_all`. -/
abbrev cmach (α : Type) (cfg : Cfg) := (mach α cfg).client (routine α) fun o => QChoice.base (.call o)

/-- No compared tag has wrapped completely since the snapshot it is compared with. -/
abbrev cok (cfg : Cfg) := clientOk (mach α cfg) (routine α) (fun o => QChoice.base (.call o)) (okFresh cfg)

/-- Executions of a queue constructed for `n` elements, with `consume_one` and `consume_all`. -/
abbrev CExec (cfg : Cfg) (n : Nat) (tr : CTrace α) (C : CConf α) : Prop :=
  MSteps (cmach α cfg) (cok cfg) (outside (St.ofHeap cfg (Heap.initial (n + 1)))) tr C

variable {tr tr' : CTrace α} {C C' : CConf α}

theorem callable (cfg : Cfg) : (mach α cfg).Callable fun o => QChoice.base (.call o) where
  lawful := lawful cfg
  call t s o s' p' e hs := by
    have ht : Trans cfg t s .idle (.base (.call o)) s' p' e := trans_of_tstep hs
    cases ht with
    | call ho => exact ⟨rfl, (start_ne ho).1⟩
  busy t s p ch s' p' hp hs := by
    have ht := trans_of_tstep hs
    by_cases hpp : p = p'
    · rw [← hpp]; exact hp
    · exact not_idle_of_trans ht (by simp) hpp

theorem popVal_iff (r : Ret α) (x : Option α) (h : popVal r = some x) : r = .popped x := by
  cases r <;> simp [popVal] at h
  rw [h]

/-- **C50 (calls).** The calls of the queue made by routines and by others form an execution of the queue: whatever is proved of its
histories holds of them. -/
theorem queue_consume_exec (hx : CExec cfg n tr C) : FreshExec cfg n (inner tr) ((mach α cfg).base C) :=
  hx.inner (callable cfg)

/-- The pops that take `vs`. -/
def pops (vs : List α) : List (Op α × Ret α) := vs.map fun v => (.pop, .popped (some v))

/-- **C50 (`consume_one`).** Between its invocation and its return `consume_one` makes exactly one call of `pop`. If `pop` returns
false the functor is not called and `consume_one` returns false; otherwise the functor is called once, with the element, and
`consume_one` returns true unless the functor throws. -/
theorem queue_consume_one (hx : CExec cfg n tr C) {t i j thr r} (hc : RoutineCall tr t i j (.one thr) r) :
    ∃ x, ofThread t (inner (strictly tr i j)) = callEvents t [(.pop, x)] ∧
      ((x = .popped none ∧ r = .consumed [] 0) ∨
        (∃ v, x = .popped (some v) ∧ r = if thr then .raised [v] else .consumed [v] 1) ∨
        (popVal x = none ∧ r = .raised [])) := by
  obtain ⟨cs, h1, h2⟩ := hx.window (callable cfg) hc
  rcases Routine.Body.one popVal_iff h2 with ⟨rfl, h3⟩ | ⟨v, rfl, h3⟩ | ⟨x, h3, rfl, h4⟩
  · exact ⟨_, h1, .inl ⟨rfl, h3⟩⟩
  · exact ⟨_, h1, .inr (.inl ⟨v, rfl, h3⟩)⟩
  · exact ⟨_, h1, .inr (.inr ⟨h3, h4⟩)⟩

/-- **C50 (`consume_all`).** Between its invocation and its return `consume_all` makes the following calls and no others. If it returns
`m`, it has popped `m` elements, has called the functor once with each of them, in the order in which they were popped, and then
`pop` has returned false. If the functor throws, `consume_all` makes no further call; the element in question is not in the queue any
more. (The third case is an exception of `pop`, which cannot happen: the assignment of `T` is trivial, queue.hpp:96.) -/
theorem queue_consume_all (hx : CExec cfg n tr C) {t i j thr r} (hc : RoutineCall tr t i j (.all thr) r) :
    (∃ vs, r = .consumed vs vs.length ∧ (∀ k < vs.length, thr ≠ some k) ∧
      ofThread t (inner (strictly tr i j)) = callEvents t (pops vs ++ [(.pop, .popped none)])) ∨
    (∃ vs v, r = .raised (vs ++ [v]) ∧ thr = some vs.length ∧
      ofThread t (inner (strictly tr i j)) = callEvents t (pops (vs ++ [v]))) ∨
    ∃ vs x, popVal x = none ∧ r = .raised vs ∧
      ofThread t (inner (strictly tr i j)) = callEvents t (pops vs ++ [(.pop, x)]) := by
  obtain ⟨cs, h1, h2⟩ := hx.window (callable cfg) hc
  rcases Routine.Body.all popVal_iff h2 with ⟨vs, h3, h4, rfl⟩ | ⟨vs, v, h3, h4, rfl⟩ | ⟨vs, x, h3, h4, h5, rfl⟩
  · exact .inl ⟨vs, h3, h4, h1⟩
  · refine .inr (.inl ⟨vs, v, h3, h4, ?_⟩)
    rw [h1]; simp [takes, pops]
  · exact .inr (.inr ⟨vs, x, h3, h4, h1⟩)

/-- **C50 (`consume_all` ends with an empty queue).** If `consume_all` returns, without exception, the queue was empty at an instant
between its invocation and its return. -/
theorem queue_consume_all_was_empty (hx : CExec cfg n tr C) {t i j thr vs m} (hc : RoutineCall tr t i j (.all thr) (.consumed vs m)) :
    m = vs.length ∧ ∃ k C₁, i < k ∧ k ≤ j ∧ CExec cfg n (tr.take k) C₁ ∧
      MSteps (cmach α cfg) (cok cfg) C₁ (tr.drop k) C ∧ Holds C₁.s [] := by
  rcases queue_consume_all hx hc with ⟨vs', h1, _, h3⟩ | ⟨_, _, h1, _⟩ | ⟨_, _, _, h1, _⟩
  · cases h1
    refine ⟨rfl, ?_⟩
    obtain ⟨a, b, h4, h5, h6⟩ := window_call (B := []) hc.lt.1 hc.lt.2 h3
    obtain ⟨k, C₁, c₁, σ, h7, h8, h9, h10, ⟨g, h11⟩, h12⟩ := hx.inner_instant (callable cfg) (queue_sim cfg)
      (by exact ⟨_, GInv.initial cfg n⟩) h6
    refine ⟨k, C₁, by omega, by omega, h9, h10, ?_⟩
    have h13 : Holds C₁.s c₁.st := h11.si.holds
    have h14 : c₁.st = [] := by
      have : specStep cfg.fixed c₁.st .pop (.popped none) σ := h12
      simp [specStep] at this
      exact this.1
    rw [h14] at h13; exact h13
  · cases h1
  · cases h1

theorem pops_append (us vs : List α) : pops (us ++ vs) = pops us ++ pops vs := List.map_append ..

/-- **C50 (order).** The functor of `consume_all` sees the elements in queue order: let `v` and `w` be different values, each offered by
exactly one push call, and let the push of `v` have returned (with success) before the push of `w` was called; then no call of
`consume_all` applies its functor to `w` and later to `v`. -/
theorem queue_consume_all_order (hx : CExec cfg n tr C) {v w : α} (hne : v ≠ w) {tv iv jv iw tw : Nat} {bv bw : Bool}
    (hv : ∀ (k t : Nat) (b : Bool), tr[k]? = some (.inv t (.inr (.push b v))) → k = iv)
    (hw : ∀ (k t : Nat) (b : Bool), tr[k]? = some (.inv t (.inr (.push b w))) → k = iw)
    (hpv : InnerCall tr tv iv jv (.push bv v) (.pushed true)) (hpw : tr[iw]? = some (.inv tw (.inr (.push bw w)))) (hlt : jv < iw)
    {t i j thr r} (hc : RoutineCall tr t i j (.all thr) r) : ¬ [w, v].Sublist (applied r) := by
  intro hs
  have key : ∃ cs, ofThread t (inner (strictly tr i j)) = callEvents t (pops (applied r) ++ cs) := by
    rcases queue_consume_all hx hc with ⟨vs', rfl, _, h3⟩ | ⟨_, _, rfl, _, h3⟩ | ⟨_, _, _, rfl, h3⟩
    · exact ⟨_, h3⟩
    · exact ⟨[], by rw [List.append_nil]; exact h3⟩
    · exact ⟨_, h3⟩
  obtain ⟨cs, key⟩ := key
  obtain ⟨A, B, D, hABD⟩ : ∃ A B D, applied r = A ++ w :: (B ++ v :: D) := by
    generalize applied r = l at hs
    obtain ⟨l₁, l₂, rfl, h1, h2⟩ := List.cons_sublist_iff.1 hs
    obtain ⟨A, A', rfl⟩ := List.append_of_mem h1
    obtain ⟨B, D, rfl⟩ := List.append_of_mem (List.singleton_sublist.1 h2)
    exact ⟨A, A' ++ B, D, by simp⟩
  rw [hABD, show pops (A ++ w :: (B ++ v :: D)) ++ cs = pops A ++ (.pop, .popped (some w)) :: (pops B ++ (.pop, .popped (some v)) ::
    (pops D ++ cs)) by simp [pops]] at key
  obtain ⟨a, b, a', b', _, h2, _, h4, h5⟩ := window_calls hc.lt.1 hc.lt.2 key
  have hinv : ∀ {u : α} {k : Nat}, (∀ (k' t : Nat) (b : Bool), tr[k']? = some (.inv t (.inr (.push b u))) → k' = k) →
      ∀ (k' t : Nat) (b : Bool), (inner tr)[k']? = some (.inv t (.push b u)) → k' = (inner (tr.take k)).length := by
    intro u k hu k' t b hk
    obtain ⟨c, e, h6, h7, rfl⟩ := inner_from hk
    have he : e = .inv t (.inr (.push b u)) := by
      unfold inner? at h7
      split at h7 <;> simp at h7
      obtain ⟨rfl, rfl⟩ := h7
      rfl
    subst he
    rw [hu _ _ _ h6]
  refine queue_order (queue_consume_exec hx) hne (i := (inner (tr.take iv)).length) (j := (inner (tr.take jv)).length)
    (i' := (inner (tr.take iw)).length) (hinv hv) (hinv hw) hpv.returned.1 ⟨tv, bv, hpv.returned.2⟩
    (inner_at (f := .inv tw (.push bw w)) hpw rfl).1 ?_ h5.returned.1 h4.returned.1 ?_
  · have h6 := (inner_at (f := .res tv (.pushed true)) hpv.2.2.1 rfl).2
    have h7 := inner_take_le (tr := tr) (a := jv + 1) (b := iw) hlt
    omega
  · have h6 := (inner_at (f := .res t (.popped (some w))) h4.2.2.1 rfl).2
    have h7 := inner_take_le (tr := tr) (a := b + 1) (b := a') h2
    omega

/-! ### Conservation -/

/-- The elements a completed call has taken out of the queue: those returned by `pop` and those given to functors. -/
def takenBy : COp (Op α) → CRet (Ret α) α → List α
  | .prim o, .prim r => (handedBy o r).toList
  | _, r => applied r

/-- The element a completed call has put into the queue. -/
def givenBy : COp (Op α) → CRet (Ret α) α → List α
  | .prim o, .prim r => (pushedBy o r).toList
  | _, _ => []

theorem pops_taken (vs : List α) : (pops vs).flatMap (fun x => (handedBy x.1 x.2).toList) = vs := by
  induction vs with
  | nil => rfl
  | cons v vs ih => rw [show pops (v :: vs) = (.pop, .popped (some v)) :: pops vs from rfl, List.flatMap_cons, ih]; rfl

theorem pops_given (vs : List α) : (pops vs).flatMap (fun x => (pushedBy x.1 x.2).toList) = [] := by
  induction vs with
  | nil => rfl
  | cons v vs ih => rw [show pops (v :: vs) = (.pop, .popped (some v)) :: pops vs from rfl, List.flatMap_cons, ih]; rfl

theorem handed_val {x : Ret α} (h : popVal x = none) : handedBy .pop x = none := by
  cases x <;> first | rfl | simp [popVal] at h

theorem taken_body {o cs} {r : CRet (Ret α) α} (hb : (routine α).Body o cs r) :
    cs.flatMap (fun x => (handedBy x.1 x.2).toList) = takenBy o r ∧ cs.flatMap (fun x => (pushedBy x.1 x.2).toList) = givenBy o r := by
  cases o with
  | prim o =>
    obtain ⟨x, rfl, rfl⟩ := hb.prim
    simp [takenBy, givenBy]
  | one thr =>
    rcases hb.one popVal_iff with ⟨rfl, rfl⟩ | ⟨v, rfl, rfl⟩ | ⟨x, h, rfl, rfl⟩
    · simp [takenBy, givenBy, handedBy, pushedBy, applied]
    · cases thr <;> simp [takenBy, givenBy, handedBy, pushedBy, applied]
    · simp [takenBy, givenBy, handed_val h, pushedBy, applied]
  | all thr =>
    rcases hb.all popVal_iff with ⟨vs, rfl, _, rfl⟩ | ⟨vs, v, rfl, _, rfl⟩ | ⟨vs, x, h, rfl, _, rfl⟩ <;>
      rw [List.flatMap_append, List.flatMap_append] <;>
      rw [show takes (fun _ => Op.pop) Ret.popped vs = pops vs from rfl, pops_taken, pops_given]
    · simp [takenBy, givenBy, handedBy, pushedBy, applied]
    · simp [takenBy, givenBy, handedBy, pushedBy, applied]
    · simp [takenBy, givenBy, handed_val h, pushedBy, applied]

theorem filterMap_eq_flatMap {A B : Type} (f : A → Option B) (l : List A) : l.filterMap f = l.flatMap fun x => (f x).toList := by
  induction l with
  | nil => rfl
  | cons x l ih => rw [List.flatMap_cons, ← ih, List.filterMap_cons]; cases f x <;> rfl

/-- **C50 (conservation).** When no call is in progress, the elements accepted by pushes are exactly, as a multiset, those returned by
`pop` or given to a functor (also one that threw), plus the contents of the queue. -/
theorem queue_consume_conservation (hx : CExec cfg n tr C) (hq : ∀ t, C.pc t = .out) :
    ∃ vs, Holds C.s vs ∧ (((calls (outer tr)).flatMap fun x => takenBy x.2.1 x.2.2) ++ vs).Perm
      ((calls (outer tr)).flatMap fun x => givenBy x.2.1 x.2.2) := by
  obtain ⟨vs, h1, h2⟩ := queue_conservation (queue_consume_exec hx) (fun t => by simp only [Mach.base, hq t]; rfl)
  refine ⟨vs, h1, ?_⟩
  have h3 := hx.counting (callable cfg) hq (f := fun x => (handedBy x.1 x.2).toList) (F := fun x => takenBy x.1 x.2)
    fun o cs r hb => (taken_body hb).1
  have h4 := hx.counting (callable cfg) hq (f := fun x => (pushedBy x.1 x.2).toList) (F := fun x => givenBy x.1 x.2)
    fun o cs r hb => (taken_body hb).2
  refine (h3.symm.append_right vs).trans (List.Perm.trans ?_ h4)
  simp only [delivered, accepted, filterMap_eq_flatMap] at h2
  exact h2

/-! ### Sequential use -/

theorem run_pops {fixed : Bool} {vs : List α} {L} {σ σ' : List α}
    (hr : Run (spec α fixed) σ (((pops vs) ++ L).map fun x => (0, x)) σ') :
    ∃ τ, σ = vs ++ τ ∧ Run (spec α fixed) τ (L.map fun x => (0, x)) σ' := by
  induction vs generalizing σ with
  | nil => exact ⟨σ, rfl, hr⟩
  | cons v vs ih =>
    obtain ⟨τ, h1, h2⟩ : ∃ τ : List α, specStep fixed σ .pop (.popped (some v)) τ ∧ _ := Run.cons_inv hr
    obtain ⟨ρ, rfl, h4⟩ := ih h2
    simp [specStep] at h1
    exact ⟨ρ, by simp [h1], h4⟩

/-- **C50 (sequential use).** A call of `consume_all` made while no other call is in progress, and during which no other thread calls the
queue, applies the functor to the contents of the queue from front to back: to all of them, returning their number and leaving the
queue empty, unless the functor (or `pop`) throws; then to a prefix, which is removed from the queue. -/
theorem queue_consume_all_alone (hx : CExec cfg n tr C) (hq : ∀ t, C.pc t = .out) {t thr r}
    (hs : MSteps (cmach α cfg) (cok cfg) C tr' C') (ho : outer tr' = [.inv t (.all thr), .res t r]) :
    (∀ t, C'.pc t = .out) ∧ ∃ vs, Holds C.s vs ∧
      ((r = .consumed vs vs.length ∧ Holds C'.s [] ∧ ∀ k < vs.length, thr ≠ some k) ∨
        (∃ us v ws, vs = us ++ v :: ws ∧ thr = some us.length ∧ r = .raised (us ++ [v]) ∧ Holds C'.s ws) ∨
        ∃ us ws, vs = us ++ ws ∧ r = .raised us ∧ Holds C'.s ws) := by
  obtain ⟨g, c, hi, _⟩ := (queue_consume_exec hx).inv
  have hidle : ∀ t, c.status t = .idle := fun t => (hi.idle_iff t).1 (by simp only [Mach.base, hq t]; rfl)
  obtain ⟨h1, cs, c', h2, ⟨g', h3⟩, h4, h5⟩ := hs.solo_routine (callable cfg) (queue_sim cfg) (c := c) ⟨g, hi⟩ hidle hq ho
  refine ⟨h1, c.st, hi.si.holds, ?_⟩
  have h6 : Holds C'.s c'.st := h3.si.holds
  rcases h2.all popVal_iff with ⟨vs, rfl, h7, rfl⟩ | ⟨vs, v, rfl, h7, rfl⟩ | ⟨vs, x, h7, rfl, _, rfl⟩
  · obtain ⟨τ, h8, h9⟩ := run_pops h5
    obtain ⟨ρ, h10, h11⟩ : ∃ ρ : List α, specStep cfg.fixed τ .pop (.popped none) ρ ∧ _ := Run.cons_inv h9
    simp [specStep] at h10
    have h12 : ρ = c'.st := Run.nil_inv h11
    obtain ⟨rfl, rfl⟩ := h10
    rw [h8, List.append_nil]
    exact .inl ⟨rfl, by rw [h12]; exact h6, h7⟩
  · have : takes (fun _ => Op.pop) Ret.popped vs ++ [(Op.pop, Ret.popped (some v))] = pops (vs ++ [v]) ++ [] := by simp [takes, pops]
    rw [this] at h5
    obtain ⟨τ, h8, h9⟩ := run_pops h5
    have h12 : τ = c'.st := Run.nil_inv h9
    exact .inr (.inl ⟨vs, v, τ, by rw [h8]; simp, h7, rfl, by rw [h12]; exact h6⟩)
  · obtain ⟨τ, h8, h9⟩ := run_pops h5
    obtain ⟨ρ, h10, h11⟩ : ∃ ρ : List α, specStep cfg.fixed τ .pop x ρ ∧ _ := Run.cons_inv h9
    have h12 : ρ = c'.st := Run.nil_inv h11
    have h13 : ρ = τ := by cases x <;> simp [specStep, popVal] at h10 h7; exact h10
    exact .inr (.inr ⟨vs, τ, h8, rfl, by rw [← h13, h12]; exact h6⟩)

/-! ### Completion -/

/-- Choices of the queue with routines without spurious failures and exceptions. -/
def cplain : CChoice (QChoice α) (COp (Op α)) → Prop
  | .inner ch => plain ch
  | _ => True

/-- PCs of a `pop` that does not throw. -/
def popping : PC α → Prop
  | .cHead | .cTail _ | .cNext _ _ | .cCheck _ _ _ | .swing .retryPop _ _ | .cData _ _ | .cCas _ _ _ | .cDestroy _ _ | .free (.pop _) _ _
  | .ret (.popped _) | .err => True
  | _ => False

theorem popping_step {t : Nat} {s s' : St α} {p p' : PC α} {ch} (hp : popping p) (hch : plain ch)
    (ht : Trans cfg t s p ch s' p' none) : popping p' := by
  cases ht with
  | @cCheck H T N => unfold cBranch; (repeat' split) <;> trivial
  | @swing k => cases k <;> trivial
  | @swingFail k => cases k <;> first | exact hp.elim | trivial
  | @freeMore k => cases k <;> first | exact hp.elim | trivial
  | @freeDone k => cases k <;> first | exact hp.elim | trivial
  | cDataThrow => exact hch.elim
  | _ => trivial

theorem lift_alone {t k : Nat} {s s' : St α} {p : PC α} {r : Ret α} {h : History (Op α) (Ret α)} {q}
    (ha : Alone (mach α cfg) (fun s p ch => okFresh cfg s p ch ∧ plain ch) t k s p h s' q) (hh : h = [.res t r]) (hq : q = .idle)
    (hp : popping p) (l : CLocal (Op α) (Ret α) α) :
    (∃ v, r = .popped v) ∧ Alone (cmach α cfg) (fun s p ch => cok cfg s p ch ∧ cplain ch) t k s (.within l p) [.res t (.inr r)] s'
      (.between ((routine α).got l r)) := by
  induction ha with
  | nil => simp at hh
  | @cons k s p ch s₁ p₁ e h s'' p'' hs hok ha ih =>
    have ht : Trans cfg t s p ch s₁ p₁ e := trans_of_tstep hs
    cases e with
    | none =>
      obtain ⟨h1, h2⟩ := ih (by simpa using hh) hq (popping_step hp hok.2 ht)
      refine ⟨h1, ?_⟩
      have h3 : (cmach α cfg).step t s (.within l p) (.inner ch) = some (s₁, .within l p₁, none) := by
        simp only [Mach.client, hs]; rfl
      exact .cons h3 ⟨hok.1, hok.2⟩ h2
    | some e =>
      simp only [Option.toList, List.singleton_append, List.cons.injEq] at hh
      obtain ⟨rfl, hh⟩ := hh
      have hret : p = .ret r ∧ p₁ = .idle := by
        rcases lawful cfg _ _ _ _ _ _ _ hs with ⟨_, o, h3⟩ | ⟨r', h1, h2, h3⟩
        · cases h3
        · cases h3; exact ⟨h1, h2⟩
      obtain ⟨rfl, rfl⟩ := hret
      cases ha with
      | nil =>
        clear hh
        refine ⟨by cases r <;> first | exact hp.elim | exact ⟨_, rfl⟩, ?_⟩
        have h3 : (cmach α cfg).step t s (.within l (.ret r)) (.inner ch) =
            some (s₁, .between ((routine α).got l r), some (.res t (.inr r))) := by simp only [Mach.client, hs]
        exact .cons h3 ⟨hok.1, hok.2⟩ (.nil _ _)
      | @cons k _ _ ch' s₂ p₂ e' h' _ _ hs' hok' ha' =>
        exfalso
        have ht' : Trans cfg t s₁ .idle ch' s₂ p₂ e' := trans_of_tstep hs'
        cases ht' with
        | call => exact hok'.2.elim

/-- One call of `pop` made by a routine that runs alone. -/
theorem pop_alone [Nonempty α] (hx : CExec cfg n tr C) {t : Nat} {l : CLocal (Op α) (Ret α) α} (hpc : C.pc t = .between l)
    (hn : (routine α).next l = .inl .pop) :
    ∃ k v s', k ≤ 20 ∧ Alone (cmach α cfg) (fun s p ch => cok cfg s p ch ∧ cplain ch) t k C.s (.between l)
      [.inv t (.inr .pop), .res t (.inr (.popped v))] s' (.between ((routine α).got l (.popped v))) := by
  have h1 : (cmach α cfg).step t C.s (.between l) .go = some (C.s, .within l .cHead, some (.inv t (.inr .pop))) := by
    simp only [Mach.client, hn]; rfl
  have hok : cok cfg C.s (.between l) CChoice.go := by intro o _; trivial
  have hx' : CExec cfg n _ ⟨C.s, upd C.pc t (.within l .cHead)⟩ := hx.step (by rw [hpc]; exact h1) (by rw [hpc]; exact hok)
  have hf := queue_consume_exec hx'
  have hd : ∃ i, Pending (inner (tr ++ (some (.inv t (.inr .pop)) : Option (Event (COp (Op α) ⊕ Op α) (CRet (Ret α) α ⊕ Ret α))).toList))
      t i (.pop : Op α) := by
    rcases hx'.cgood (callable cfg) t with ⟨h, _⟩ | ⟨Cs, cs, o, ds, x, _, h3, _, h5⟩
    · simp at h
    · simp only [upd_self, CPC.In] at h5
      obtain ⟨_, _, q, rfl, h6⟩ := h5
      rw [hn] at h6
      cases h6
      exact h3.pending
  obtain ⟨i, hp⟩ := hd
  obtain ⟨k, s', r, hk, ha⟩ := queue_solo_completes (t := t) hf hp (by
    have : ((mach α cfg).base ⟨C.s, upd C.pc t (.within l .cHead)⟩).pc t = .cHead := by simp [Mach.base, Mach.basePC]
    rw [this]; trivial)
  have hb : ((mach α cfg).base ⟨C.s, upd C.pc t (.within l .cHead)⟩).pc t = .cHead := by simp [Mach.base, Mach.basePC]
  rw [hb] at ha
  obtain ⟨⟨v, rfl⟩, h7⟩ := lift_alone ha rfl rfl trivial l
  exact ⟨k + 1, v, s', by simp only [soloBound] at hk; omega, .cons h1 ⟨hok, trivial⟩ h7⟩

theorem consume_loop [Nonempty α] {t : Nat} : ∀ {vs us : List α} {tr : CTrace α} {C : CConf α}, CExec cfg n tr C →
    (∀ u, u ≠ t → C.pc u = .out) → C.pc t = .between (.loop false none us us.length) → Holds C.s vs →
    ∃ k tr' s', k ≤ 20 * (vs.length + 1) ∧ outer tr' = [] ∧
      Alone (cmach α cfg) (fun s p ch => cok cfg s p ch ∧ cplain ch) t k C.s (C.pc t) tr' s'
        (.between (.fin (.consumed (us ++ vs) (us ++ vs).length))) ∧ Holds s' [] := by
  intro vs
  induction vs with
  | nil =>
    intro us tr C hx hout hpc hh
    obtain ⟨k, v, s', hk, ha⟩ := pop_alone hx hpc rfl
    have hs := ha.steps (C := C) rfl hpc
    have hs' := hs.mono (ok' := cok cfg) fun _ _ _ h => h.1
    have hin : MSteps (mach α cfg) (okFresh cfg) _ (callEvents t [(.pop, .popped v)]) _ := hs'.inner (callable cfg)
    obtain ⟨g, c, hi, _⟩ := (queue_consume_exec hx).inv
    have hidle : ∀ u, c.status u = .idle := fun u => (hi.idle_iff u).1 (by
      by_cases hu : u = t
      · subst hu; simp only [Mach.base, hpc]; rfl
      · simp only [Mach.base, hout u hu]; rfl)
    obtain ⟨c', ⟨g', h3⟩, _, h5⟩ := hin.solo_calls (queue_sim cfg) (c := c) ⟨g, hi⟩ hidle
    have hst : c.st = [] := Holds.unique hi.si.holds hh
    rw [hst] at h5
    obtain ⟨ρ, h10, h11⟩ : ∃ ρ : List α, specStep cfg.fixed [] .pop (.popped v) ρ ∧ _ := Run.cons_inv h5
    have h12 : ρ = c'.st := Run.nil_inv h11
    have h6 : Holds s' c'.st := h3.si.holds
    cases v with
    | some v => simp [specStep] at h10
    | none =>
      simp [specStep] at h10
      subst h10
      rw [hpc, List.append_nil]
      exact ⟨k, _, s', by simpa using hk, by rfl, ha, by rw [h12]; exact h6⟩
  | cons v vs ih =>
    intro us tr C hx hout hpc hh
    obtain ⟨k, w, s', hk, ha⟩ := pop_alone hx hpc rfl
    have hs := ha.steps (C := C) rfl hpc
    have hs' := hs.mono (ok' := cok cfg) fun _ _ _ h => h.1
    have hin : MSteps (mach α cfg) (okFresh cfg) _ (callEvents t [(.pop, .popped w)]) _ := hs'.inner (callable cfg)
    obtain ⟨g, c, hi, _⟩ := (queue_consume_exec hx).inv
    have hidle : ∀ u, c.status u = .idle := fun u => (hi.idle_iff u).1 (by
      by_cases hu : u = t
      · subst hu; simp only [Mach.base, hpc]; rfl
      · simp only [Mach.base, hout u hu]; rfl)
    obtain ⟨c', ⟨g', h3⟩, _, h5⟩ := hin.solo_calls (queue_sim cfg) (c := c) ⟨g, hi⟩ hidle
    have hst : c.st = v :: vs := Holds.unique hi.si.holds hh
    rw [hst] at h5
    obtain ⟨ρ, h10, h11⟩ : ∃ ρ : List α, specStep cfg.fixed (v :: vs) .pop (.popped w) ρ ∧ _ := Run.cons_inv h5
    have h12 : ρ = c'.st := Run.nil_inv h11
    have h6 : Holds s' c'.st := h3.si.holds
    cases w with
    | none => simp [specStep] at h10
    | some w =>
      simp [specStep] at h10
      obtain ⟨rfl, rfl⟩ := h10
      rw [← h12] at h6
      obtain ⟨k₂, tr₂, s₂, hk₂, ho₂, ha₂, hh₂⟩ := ih (us := us ++ [v]) (hx.trans hs')
        (fun u hu => by simp only [upd_ne _ _ _ hu]; exact hout u hu)
        (by simp [consumeRoutine, popVal]) h6
      simp only [upd_self] at ha₂
      have ha₃ := ha.trans ha₂
      rw [List.append_assoc] at ha₃
      rw [hpc]
      exact ⟨k + k₂, _, s₂, by simp only [List.length_cons]; omega, by rw [outer_append, ho₂]; rfl, ha₃, hh₂⟩

/-- **C50 (completion).** From any configuration in which no call is in progress, a thread that calls `consume_all` with a functor that
does not throw, and runs alone and without spurious failures, completes the call, within `20 * (m + 1) + 3` steps if the queue has `m`
elements. -/
theorem queue_consume_all_completes [Nonempty α] (hx : CExec cfg n tr C) (hq : ∀ t, C.pc t = .out) (t : Nat) :
    ∃ vs k tr' s', Holds C.s vs ∧ k ≤ 20 * (vs.length + 1) + 3 ∧
      Alone (cmach α cfg) (fun s p ch => cok cfg s p ch ∧ cplain ch) t k C.s .out tr' s' .out ∧
      outer tr' = [.inv t (.all none), .res t (.consumed vs vs.length)] ∧ Holds s' [] := by
  obtain ⟨g, c, hi, _⟩ := (queue_consume_exec hx).inv
  have hh : Holds C.s c.st := hi.si.holds
  have h1 : (cmach α cfg).step t C.s .out (.call (.all none)) =
      some (C.s, .between (.loop false none [] 0), some (.inv t (.inl (.all none)))) := rfl
  have hx' := MSteps.step (t := t) hx (by rw [hq t]; exact h1) (by rw [hq t]; trivial)
  obtain ⟨k, tr', s', hk, ho, ha, hh'⟩ := consume_loop (t := t) (us := []) hx'
    (fun u hu => by simp only [upd_ne _ _ _ hu]; exact hq u) (by simp) hh
  simp only [upd_self] at ha
  have h2 := Alone.cons (ok := fun s p ch => cok cfg s p ch ∧ cplain ch) h1 ⟨trivial, trivial⟩ ha
  have h3 : (cmach α cfg).step t s' (.between (.fin (.consumed c.st c.st.length))) .go = some (s', .ret (.consumed c.st c.st.length), none) := rfl
  have h4 : (cmach α cfg).step t s' (.ret (.consumed c.st c.st.length)) .go =
    some (s', .out, some (.res t (.inl (.consumed c.st c.st.length)))) := rfl
  have h4 := (h2.snoc h3 ⟨fun o h => by simp [consumeRoutine] at h, trivial⟩).snoc h4 ⟨trivial, trivial⟩
  refine ⟨c.st, _, _, s', hh, by omega, h4, ?_, hh'⟩
  simp only [outer_append, ho]
  rfl

end Verif.Queue
