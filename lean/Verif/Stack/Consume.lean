import Verif.Consume
import Verif.Stack.Solo
import Verif.Stack.Safety

/-!
# Stack: `consume_all` (stack.hpp:580-598)

The stack with this routine (`Verif.Consume`) on top of the machine of `Stack.Model`, which has `consume_one` (stack.hpp:531-548, 552-569) as
`Op.pop thr`.
-/

namespace Verif.Stack
open Lin

variable {α : Type} {cfg : Cfg} {n : Nat}

/-- Result of `consume_one( f )` (stack.hpp:531-548, 552-569). -/
def popVal : Ret α → Option (Option α)
  | .popped v => some v
  | _ => none

/-- Traces of the stack with `consume_all`. -/
abbrev CTrace (α : Type) := Trace (Op α) (Ret α) (COp (Op α)) (CRet (Ret α) α)

/-- Configurations of the stack with `consume_all`. -/
abbrev CConf (α : Type) := MConf (St α) (CPC (PC α) (CRet (Ret α) α) (CLocal (Op α) (Ret α) α))

/-- `consume_all` (stack.hpp:580-598). -/
abbrev routine (α : Type) : Routine (Op α) (Ret α) (COp (Op α)) (CRet (Ret α) α) (CLocal (Op α) (Ret α) α) :=
  consumeRoutine .pop popVal

/-- The machine of a stack with `consume_all`. -/
abbrev cmach (α : Type) (cfg : Cfg) := (mach α cfg).client (routine α) Choice.call

/-- No compared tag has wrapped completely since the snapshot it is compared with; no empty range is pushed. -/
abbrev cok (cfg : Cfg) := clientOk (mach α cfg) (routine α) Choice.call (okFresh cfg)

/-- Executions of a stack constructed with `n` nodes, with `consume_all`. -/
abbrev CExec (cfg : Cfg) (n : Nat) (tr : CTrace α) (C : CConf α) : Prop :=
  MSteps (cmach α cfg) (cok cfg) (outside (Conf.initial n : Conf α).s) tr C

variable {tr tr' : CTrace α} {C C' : CConf α}

theorem callable (cfg : Cfg) : (mach α cfg).Callable Choice.call where
  lawful := lawful cfg
  call t s o s' p' e hs := by
    have ht : Trans cfg t s .idle (.call o) s' p' e := trans_of_tstep hs
    cases ht with
    | call ho => exact ⟨rfl, (start_ne ho).1⟩
  busy t s p ch s' p' hp hs := by
    have ht : Trans cfg t s p ch s' p' none := trans_of_tstep hs
    have hp : p ≠ .idle := hp
    show p' ≠ .idle
    cases ht with
    | @allocNull b k => rcases k with _ | ⟨_, _ | _, _, _⟩ <;> simp [onNull]
    | @allocBad b k => rcases k with _ | ⟨_, _ | _, _, _⟩ <;> simp [onThrow]
    | @constrThrow b k => rcases k with _ | ⟨_, _ | _, _, _⟩ <;> simp [onThrow]
    | @rlinkFirst b acc v rest n => cases rest <;> simp [onLinked]
    | @rlinkNext b acc top e v rest n => cases rest <;> simp [onLinked]
    | @freeDone k => rcases k with _ | ⟨_, _, _ | _⟩ | _ | (_ | _) <;> simp [onFreed]
    | @ccasOk rev => cases rev <;> simp
    | _ => simp

theorem popVal_iff (r : Ret α) (x : Option α) (h : popVal r = some x) : r = .popped x := by
  cases r <;> simp [popVal] at h
  rw [h]

/-- **C50 (stack: calls).** The calls of the stack made by `consume_all` and by others form an execution of the stack: whatever is
proved of its histories holds of them. -/
theorem stack_consume_exec (hx : CExec cfg n tr C) : FreshExec cfg n (inner tr) ((mach α cfg).base C) :=
  hx.inner (callable cfg)

/-- The calls of `consume_one` that take `vs`. -/
def pops (vs : List α) : List (Op α × Ret α) := vs.map fun v => (.pop false, .popped (some v))

/-- A call of the stack made in the course of an execution took effect at an instant. -/
theorem inner_effect (hx : CExec cfg n tr C) {t a b o r} (hc : InnerCall tr t a b o r) :
    ∃ k C₁ σ σ', a < k ∧ k ≤ b ∧ CExec cfg n (tr.take k) C₁ ∧ MSteps (cmach α cfg) (cok cfg) C₁ (tr.drop k) C ∧
      Holds C₁.s σ ∧ specStep cfg.fixed σ o r σ' := by
  obtain ⟨k, C₁, c₁, σ, h7, h8, h9, h10, ⟨g, h11⟩, h12⟩ := hx.inner_instant (callable cfg) (stack_sim cfg)
    (by exact ⟨_, GInv.initial cfg n⟩) hc
  exact ⟨k, C₁, c₁.st, σ, h7, h8, h9, h10, h11.si.holds, h12⟩

theorem pop_result {fixed : Bool} {σ σ' : List α} {thr x} (hs : specStep fixed σ (.pop thr) x σ') : popVal x ≠ none := by
  cases x <;> simp [specStep, popVal] at hs ⊢

/-- **C50 (stack: `consume_all`).** Between its invocation and its return `consume_all` makes the following calls and no others. If it
returns `m`, it has popped `m` elements, has called the functor once with each of them, in the order in which they were popped, and
then `consume_one` has returned false. If the functor throws, `consume_all` makes no further call; the element in question is not in
the stack any more. -/
theorem stack_consume_all (hx : CExec cfg n tr C) {t i j thr r} (hc : RoutineCall tr t i j (.all thr) r) :
    (∃ vs, r = .consumed vs vs.length ∧ (∀ k < vs.length, thr ≠ some k) ∧
      ofThread t (inner (strictly tr i j)) = callEvents t (pops vs ++ [(.pop (thr = some vs.length), .popped none)])) ∨
    ∃ vs v, r = .raised (vs ++ [v]) ∧ thr = some vs.length ∧
      ofThread t (inner (strictly tr i j)) = callEvents t (pops vs ++ [(.pop true, .popped (some v))]) := by
  obtain ⟨cs, h1, h2⟩ := hx.window (callable cfg) hc
  rcases Routine.Body.all popVal_iff h2 with ⟨vs, h3, h4, rfl⟩ | ⟨vs, v, h3, h4, rfl⟩ | ⟨vs, x, h3, h4, h5, rfl⟩
  · exact .inl ⟨vs, h3, h4, h1⟩
  · exact .inr ⟨vs, v, h3, h4, h1⟩
  · exfalso
    obtain ⟨a, b, _, _, h6⟩ := window_call (B := []) hc.lt.1 hc.lt.2 h1
    obtain ⟨_, _, _, _, _, _, _, _, _, h7⟩ := inner_effect hx h6
    exact pop_result h7 h3

/-- **C50 (stack: `consume_all` ends with an empty stack).** If `consume_all` returns, without exception, the stack was empty at an
instant between its invocation and its return. -/
theorem stack_consume_all_was_empty (hx : CExec cfg n tr C) {t i j thr vs m} (hc : RoutineCall tr t i j (.all thr) (.consumed vs m)) :
    m = vs.length ∧ ∃ k C₁, i < k ∧ k ≤ j ∧ CExec cfg n (tr.take k) C₁ ∧
      MSteps (cmach α cfg) (cok cfg) C₁ (tr.drop k) C ∧ Holds C₁.s [] := by
  rcases stack_consume_all hx hc with ⟨vs', h1, _, h3⟩ | ⟨_, _, h1, _⟩
  · cases h1
    refine ⟨rfl, ?_⟩
    obtain ⟨a, b, h4, h5, h6⟩ := window_call (B := []) hc.lt.1 hc.lt.2 h3
    obtain ⟨k, C₁, σ, σ', h7, h8, h9, h10, h11, h12⟩ := inner_effect hx h6
    refine ⟨k, C₁, by omega, by omega, h9, h10, ?_⟩
    simp [specStep] at h12
    rw [← h12.1]; exact h11
  · cases h1

/-! ### Conservation -/

/-- The elements a completed call has taken out of the stack and given to the caller. -/
def takenBy : COp (Op α) → CRet (Ret α) α → List α
  | .prim o, .prim r => handedBy o r
  | _, r => applied r

/-- The elements a completed call has put into the stack. -/
def givenBy : COp (Op α) → CRet (Ret α) α → List α
  | .prim o, .prim r => pushedBy o r
  | _, _ => []

theorem pops_taken (vs : List α) : (pops vs).flatMap (fun x => handedBy x.1 x.2) = vs := by
  induction vs with
  | nil => rfl
  | cons v vs ih => rw [show pops (v :: vs) = (.pop false, .popped (some v)) :: pops vs from rfl, List.flatMap_cons, ih]; rfl

theorem pops_given (vs : List α) : (pops vs).flatMap (fun x => pushedBy x.1 x.2) = [] := by
  induction vs with
  | nil => rfl
  | cons v vs ih => rw [show pops (v :: vs) = (.pop false, .popped (some v)) :: pops vs from rfl, List.flatMap_cons, ih]; rfl

theorem handed_val {thr} {x : Ret α} (h : popVal x = none) : handedBy (.pop thr) x = [] := by
  cases x <;> first | rfl | simp [popVal] at h

theorem taken_body {o cs} {r : CRet (Ret α) α} (hb : (routine α).Body o cs r) :
    cs.flatMap (fun x => handedBy x.1 x.2) = takenBy o r ∧ cs.flatMap (fun x => pushedBy x.1 x.2) = givenBy o r := by
  cases o with
  | prim o =>
    obtain ⟨x, rfl, rfl⟩ := hb.prim
    simp [takenBy, givenBy]
  | one thr =>
    rcases hb.one popVal_iff with ⟨rfl, rfl⟩ | ⟨v, rfl, rfl⟩ | ⟨x, h, rfl, rfl⟩
    · simp [takenBy, givenBy, handedBy, pushedBy, applied]
    · cases thr <;> simp [takenBy, givenBy, handedBy, pushedBy, applied]
    · simp [takenBy, givenBy, handed_val h, pushedBy, applied]
  | all thr =>
    rcases hb.all popVal_iff with ⟨vs, rfl, _, rfl⟩ | ⟨vs, v, rfl, _, rfl⟩ | ⟨vs, x, h, rfl, _, rfl⟩ <;>
      rw [List.flatMap_append, List.flatMap_append] <;>
      rw [show takes Op.pop Ret.popped vs = pops vs from rfl, pops_taken, pops_given]
    · simp [takenBy, givenBy, handedBy, pushedBy, applied]
    · simp [takenBy, givenBy, handedBy, pushedBy, applied]
    · simp [takenBy, givenBy, handed_val h, pushedBy, applied]

/-- **C50 (stack: conservation).** When no call is in progress, the elements accepted by pushes are exactly, as a multiset, those
popped or given to a functor (also one of `consume_one` or `consume_all` that threw), plus the contents of the stack; provided no
functor of `consume_all_atomic` threw (which drops elements, see C23). -/
theorem stack_consume_conservation (hx : CExec cfg n tr C) (hq : ∀ t, C.pc t = .out)
    (hno : ∀ t rev k, Event.inv t (.prim (.consumeAll rev (some k))) ∉ outer tr) :
    ∃ vs, Holds C.s vs ∧ (((calls (outer tr)).flatMap fun x => takenBy x.2.1 x.2.2) ++ vs).Perm
      ((calls (outer tr)).flatMap fun x => givenBy x.2.1 x.2.2) := by
  obtain ⟨vs, h1, h2⟩ := stack_conservation (stack_consume_exec hx) (fun t => by simp only [Mach.base, hq t]; rfl)
    (by
      intro t rev k hm
      simp only [inner, List.mem_filterMap] at hm
      obtain ⟨e, he, hf⟩ := hm
      have he' : e = .inv t (.inr (.consumeAll rev (some k))) := by
        unfold inner? at hf
        split at hf <;> simp at hf
        obtain ⟨rfl, rfl⟩ := hf
        rfl
      subst he'
      rcases (hx.prims (callable cfg)).2 _ _ he with ⟨thr, h⟩ | h
      · cases h
      · exact hno t rev k (List.mem_filterMap.2 ⟨_, h, rfl⟩))
  refine ⟨vs, h1, ?_⟩
  have h3 := hx.counting (callable cfg) hq (f := fun x => handedBy x.1 x.2) (F := fun x => takenBy x.1 x.2)
    fun o cs r hb => (taken_body hb).1
  have h4 := hx.counting (callable cfg) hq (f := fun x => pushedBy x.1 x.2) (F := fun x => givenBy x.1 x.2)
    fun o cs r hb => (taken_body hb).2
  exact (h3.symm.append_right vs).trans (h2.trans h4)

/-! ### Sequential use -/

theorem run_pops {fixed : Bool} {vs : List α} {L} {σ σ' : List α}
    (hr : Run (spec α fixed) σ (((pops vs) ++ L).map fun x => (0, x)) σ') :
    ∃ τ, σ = vs ++ τ ∧ Run (spec α fixed) τ (L.map fun x => (0, x)) σ' := by
  induction vs generalizing σ with
  | nil => exact ⟨σ, rfl, hr⟩
  | cons v vs ih =>
    obtain ⟨τ, h1, h2⟩ : ∃ τ : List α, specStep fixed σ (.pop false) (.popped (some v)) τ ∧ _ := Run.cons_inv hr
    obtain ⟨ρ, rfl, h4⟩ := ih h2
    simp [specStep] at h1
    exact ⟨ρ, by simp [h1], h4⟩

/-- **C50 (stack: sequential use).** A call of `consume_all` made while no other call is in progress, and during which no other thread
calls the stack, applies the functor to the contents of the stack from top to bottom: to all of them, returning their number and
leaving the stack empty, unless the functor throws; then to a prefix, which is removed from the stack. -/
theorem stack_consume_all_alone (hx : CExec cfg n tr C) (hq : ∀ t, C.pc t = .out) {t thr r}
    (hs : MSteps (cmach α cfg) (cok cfg) C tr' C') (ho : outer tr' = [.inv t (.all thr), .res t r]) :
    (∀ t, C'.pc t = .out) ∧ ∃ vs, Holds C.s vs ∧
      ((r = .consumed vs vs.length ∧ Holds C'.s [] ∧ ∀ k < vs.length, thr ≠ some k) ∨
        ∃ us v ws, vs = us ++ v :: ws ∧ thr = some us.length ∧ r = .raised (us ++ [v]) ∧ Holds C'.s ws) := by
  obtain ⟨g, c, hi, _⟩ := (stack_consume_exec hx).inv
  have hidle : ∀ t, c.status t = .idle := fun t => (hi.idle_iff t).1 (by simp only [Mach.base, hq t]; rfl)
  obtain ⟨h1, cs, c', h2, ⟨g', h3⟩, h4, h5⟩ := hs.solo_routine (callable cfg) (stack_sim cfg) (c := c) ⟨g, hi⟩ hidle hq ho
  refine ⟨h1, c.st, hi.si.holds, ?_⟩
  have h6 : Holds C'.s c'.st := h3.si.holds
  rcases h2.all popVal_iff with ⟨vs, rfl, h7, rfl⟩ | ⟨vs, v, rfl, h7, rfl⟩ | ⟨vs, x, h7, rfl, _, rfl⟩
  · obtain ⟨τ, h8, h9⟩ := run_pops h5
    obtain ⟨ρ, h10, h11⟩ : ∃ ρ : List α, specStep cfg.fixed τ (.pop (decide (thr = some vs.length))) (.popped none) ρ ∧ _ := Run.cons_inv h9
    simp [specStep] at h10
    have h12 : ρ = c'.st := Run.nil_inv h11
    obtain ⟨rfl, rfl⟩ := h10
    rw [h8, List.append_nil]
    exact .inl ⟨rfl, by rw [h12]; exact h6, h7⟩
  · obtain ⟨τ, h8, h9⟩ := run_pops h5
    obtain ⟨ρ, h10, h11⟩ : ∃ ρ : List α, specStep cfg.fixed τ (.pop true) (.popped (some v)) ρ ∧ _ := Run.cons_inv h9
    simp [specStep] at h10
    have h12 : ρ = c'.st := Run.nil_inv h11
    exact .inr ⟨vs, v, ρ, by rw [h8, h10], h7, rfl, by rw [h12]; exact h6⟩
  · exfalso
    obtain ⟨τ, h8, h9⟩ := run_pops h5
    obtain ⟨ρ, h10, h11⟩ : ∃ ρ : List α, specStep cfg.fixed τ (.pop (decide (thr = some vs.length))) x ρ ∧ _ := Run.cons_inv h9
    exact pop_result h10 h7

/-! ### Completion -/

/-- Choices of the stack with `consume_all` without spurious failures and exceptions. -/
def cplain : CChoice (Choice (Op α)) (COp (Op α)) → Prop
  | .inner ch => ch = .go
  | _ => True

/-- PCs of `consume_one`. -/
def popping : PC α → Prop
  | .pload _ | .ptest _ _ | .pcas _ _ _ | .papply _ _ | .pdestroy _ _ | .free (.pop _) _ _ | .ret (.popped _) | .err => True
  | _ => False

theorem popping_step {t : Nat} {s s' : St α} {p p' : PC α} {ch} (hp : popping p) (ht : Trans cfg t s p ch s' p' none) : popping p' := by
  cases ht with
  | @freeMore k => cases k <;> first | exact hp.elim | trivial
  | @freeDone k => cases k <;> first | exact hp.elim | trivial
  | _ => trivial

theorem lift_alone {t k : Nat} {s s' : St α} {p : PC α} {r : Ret α} {h : History (Op α) (Ret α)} {q}
    (ha : Alone (mach α cfg) (fun s p ch => okFresh cfg s p ch ∧ ch = .go) t k s p h s' q) (hh : h = [.res t r]) (hq : q = .idle)
    (hp : popping p) (l : CLocal (Op α) (Ret α) α) :
    (∃ v, r = .popped v) ∧ Alone (cmach α cfg) (fun s p ch => cok cfg s p ch ∧ cplain ch) t k s (.within l p) [.res t (.inr r)] s'
      (.between ((routine α).got l r)) := by
  induction ha with
  | nil => simp at hh
  | @cons k s p ch s₁ p₁ e h s'' p'' hs hok ha ih =>
    have ht : Trans cfg t s p ch s₁ p₁ e := trans_of_tstep hs
    cases e with
    | none =>
      obtain ⟨h1, h2⟩ := ih (by simpa using hh) hq (popping_step hp ht)
      refine ⟨h1, ?_⟩
      have h3 : (cmach α cfg).step t s (.within l p) (.inner ch) = some (s₁, .within l p₁, none) := by
        simp only [Mach.client, hs]; rfl
      exact .cons h3 ⟨hok.1, hok.2⟩ h2
    | some e =>
      simp only [Option.toList, List.singleton_append, List.cons.injEq] at hh
      obtain ⟨rfl, hh⟩ := hh
      have hret : p = .ret r ∧ p₁ = .idle := by
        rcases lawful cfg _ _ _ _ _ _ _ hs with ⟨_, o, h3⟩ | ⟨r', h1, h2, h3⟩
        · cases h3
        · cases h3; exact ⟨h1, h2⟩
      obtain ⟨rfl, rfl⟩ := hret
      cases ha with
      | nil =>
        clear hh
        refine ⟨by cases r <;> first | exact hp.elim | exact ⟨_, rfl⟩, ?_⟩
        have h3 : (cmach α cfg).step t s (.within l (.ret r)) (.inner ch) =
            some (s₁, .between ((routine α).got l r), some (.res t (.inr r))) := by simp only [Mach.client, hs]
        exact .cons h3 ⟨hok.1, hok.2⟩ (.nil _ _)
      | @cons k _ _ ch' s₂ p₂ e' h' _ _ hs' hok' ha' =>
        exfalso
        have ht' : Trans cfg t s₁ .idle ch' s₂ p₂ e' := trans_of_tstep hs'
        cases ht' with
        | call => cases hok'.2

/-- One call of `consume_one` made by `consume_all` running alone. -/
theorem pop_alone (hx : CExec cfg n tr C) {t : Nat} {l : CLocal (Op α) (Ret α) α} (hpc : C.pc t = .between l)
    (hn : (routine α).next l = .inl (.pop false)) :
    ∃ k v s', k ≤ 11 ∧ Alone (cmach α cfg) (fun s p ch => cok cfg s p ch ∧ cplain ch) t k C.s (.between l)
      [.inv t (.inr (.pop false)), .res t (.inr (.popped v))] s' (.between ((routine α).got l (.popped v))) := by
  have h1 : (cmach α cfg).step t C.s (.between l) .go = some (C.s, .within l (.pload false), some (.inv t (.inr (.pop false)))) := by
    simp only [Mach.client, hn]; rfl
  have hok : cok cfg C.s (.between l) CChoice.go := by
    intro o ho
    rw [hn] at ho
    cases ho
    exact ⟨trivial, fun b h => by cases h⟩
  have hx' : CExec cfg n _ ⟨C.s, upd C.pc t (.within l (.pload false))⟩ := hx.step (by rw [hpc]; exact h1) (by rw [hpc]; exact hok)
  have hf := stack_consume_exec hx'
  have hd : ∃ i, Pending (inner (tr ++ (some (.inv t (.inr (.pop false))) :
      Option (Event (COp (Op α) ⊕ Op α) (CRet (Ret α) α ⊕ Ret α))).toList)) t i (.pop false : Op α) := by
    rcases hx'.cgood (callable cfg) t with ⟨h, _⟩ | ⟨Cs, cs, o, ds, x, _, h3, _, h5⟩
    · simp at h
    · simp only [upd_self, CPC.In] at h5
      obtain ⟨_, _, q, rfl, h6⟩ := h5
      rw [hn] at h6
      cases h6
      exact h3.pending
  obtain ⟨i, hp⟩ := hd
  have hb : ((mach α cfg).base ⟨C.s, upd C.pc t (.within l (.pload false))⟩).pc t = .pload false := by simp [Mach.base, Mach.basePC]
  obtain ⟨k, s', r, hk, ha⟩ := stack_solo_completes (t := t) hf hp (by rw [hb]; trivial)
  rw [hb] at ha
  obtain ⟨⟨v, rfl⟩, h7⟩ := lift_alone ha rfl rfl trivial l
  exact ⟨k + 1, v, s', by simp only [soloBound] at hk; omega, .cons h1 ⟨hok, trivial⟩ h7⟩

theorem consume_loop {t : Nat} : ∀ {vs us : List α} {tr : CTrace α} {C : CConf α}, CExec cfg n tr C →
    (∀ u, u ≠ t → C.pc u = .out) → C.pc t = .between (.loop false none us us.length) → Holds C.s vs →
    ∃ k tr' s', k ≤ 11 * (vs.length + 1) ∧ outer tr' = [] ∧
      Alone (cmach α cfg) (fun s p ch => cok cfg s p ch ∧ cplain ch) t k C.s (C.pc t) tr' s'
        (.between (.fin (.consumed (us ++ vs) (us ++ vs).length))) ∧ Holds s' [] := by
  intro vs
  induction vs with
  | nil =>
    intro us tr C hx hout hpc hh
    obtain ⟨k, v, s', hk, ha⟩ := pop_alone hx hpc rfl
    have hs := ha.steps (C := C) rfl hpc
    have hs' := hs.mono (ok' := cok cfg) fun _ _ _ h => h.1
    have hin : MSteps (mach α cfg) (okFresh cfg) _ (callEvents t [(.pop false, .popped v)]) _ := hs'.inner (callable cfg)
    obtain ⟨g, c, hi, _⟩ := (stack_consume_exec hx).inv
    have hidle : ∀ u, c.status u = .idle := fun u => (hi.idle_iff u).1 (by
      by_cases hu : u = t
      · subst hu; simp only [Mach.base, hpc]; rfl
      · simp only [Mach.base, hout u hu]; rfl)
    obtain ⟨c', ⟨g', h3⟩, _, h5⟩ := hin.solo_calls (stack_sim cfg) (c := c) ⟨g, hi⟩ hidle
    have hst : c.st = [] := Holds.unique hi.si.holds hh
    rw [hst] at h5
    obtain ⟨ρ, h10, h11⟩ : ∃ ρ : List α, specStep cfg.fixed [] (.pop false) (.popped v) ρ ∧ _ := Run.cons_inv h5
    have h12 : ρ = c'.st := Run.nil_inv h11
    have h6 : Holds s' c'.st := h3.si.holds
    cases v with
    | some v => simp [specStep] at h10
    | none =>
      simp [specStep] at h10
      subst h10
      rw [hpc, List.append_nil]
      exact ⟨k, _, s', by simpa using hk, by rfl, ha, by rw [h12]; exact h6⟩
  | cons v vs ih =>
    intro us tr C hx hout hpc hh
    obtain ⟨k, w, s', hk, ha⟩ := pop_alone hx hpc rfl
    have hs := ha.steps (C := C) rfl hpc
    have hs' := hs.mono (ok' := cok cfg) fun _ _ _ h => h.1
    have hin : MSteps (mach α cfg) (okFresh cfg) _ (callEvents t [(.pop false, .popped w)]) _ := hs'.inner (callable cfg)
    obtain ⟨g, c, hi, _⟩ := (stack_consume_exec hx).inv
    have hidle : ∀ u, c.status u = .idle := fun u => (hi.idle_iff u).1 (by
      by_cases hu : u = t
      · subst hu; simp only [Mach.base, hpc]; rfl
      · simp only [Mach.base, hout u hu]; rfl)
    obtain ⟨c', ⟨g', h3⟩, _, h5⟩ := hin.solo_calls (stack_sim cfg) (c := c) ⟨g, hi⟩ hidle
    have hst : c.st = v :: vs := Holds.unique hi.si.holds hh
    rw [hst] at h5
    obtain ⟨ρ, h10, h11⟩ : ∃ ρ : List α, specStep cfg.fixed (v :: vs) (.pop false) (.popped w) ρ ∧ _ := Run.cons_inv h5
    have h12 : ρ = c'.st := Run.nil_inv h11
    have h6 : Holds s' c'.st := h3.si.holds
    cases w with
    | none => simp [specStep] at h10
    | some w =>
      simp [specStep] at h10
      obtain ⟨rfl, rfl⟩ := h10
      rw [← h12] at h6
      obtain ⟨k₂, tr₂, s₂, hk₂, ho₂, ha₂, hh₂⟩ := ih (us := us ++ [v]) (hx.trans hs')
        (fun u hu => by simp only [upd_ne _ _ _ hu]; exact hout u hu)
        (by simp [consumeRoutine, popVal]) h6
      simp only [upd_self] at ha₂
      have ha₃ := ha.trans ha₂
      rw [List.append_assoc] at ha₃
      rw [hpc]
      exact ⟨k + k₂, _, s₂, by simp only [List.length_cons]; omega, by rw [outer_append, ho₂]; rfl, ha₃, hh₂⟩

/-- **C50 (stack: completion).** From any configuration in which no call is in progress, a thread that calls `consume_all` with a
functor that does not throw, and runs alone and without spurious failures, completes the call, within `11 * (m + 1) + 3` steps if the
stack has `m` elements. -/
theorem stack_consume_all_completes (hx : CExec cfg n tr C) (hq : ∀ t, C.pc t = .out) (t : Nat) :
    ∃ vs k tr' s', Holds C.s vs ∧ k ≤ 11 * (vs.length + 1) + 3 ∧
      Alone (cmach α cfg) (fun s p ch => cok cfg s p ch ∧ cplain ch) t k C.s .out tr' s' .out ∧
      outer tr' = [.inv t (.all none), .res t (.consumed vs vs.length)] ∧ Holds s' [] := by
  obtain ⟨g, c, hi, _⟩ := (stack_consume_exec hx).inv
  have hh : Holds C.s c.st := hi.si.holds
  have h1 : (cmach α cfg).step t C.s .out (.call (.all none)) =
      some (C.s, .between (.loop false none [] 0), some (.inv t (.inl (.all none)))) := rfl
  have hx' := MSteps.step (t := t) hx (by rw [hq t]; exact h1) (by rw [hq t]; trivial)
  obtain ⟨k, tr', s', hk, ho, ha, hh'⟩ := consume_loop (t := t) (us := []) hx'
    (fun u hu => by simp only [upd_ne _ _ _ hu]; exact hq u) (by simp) hh
  simp only [upd_self] at ha
  have h2 := Alone.cons (ok := fun s p ch => cok cfg s p ch ∧ cplain ch) h1 ⟨trivial, trivial⟩ ha
  have h3 : (cmach α cfg).step t s' (.between (.fin (.consumed c.st c.st.length))) .go =
    some (s', .ret (.consumed c.st c.st.length), none) := rfl
  have h4 : (cmach α cfg).step t s' (.ret (.consumed c.st c.st.length)) .go =
    some (s', .out, some (.res t (.inl (.consumed c.st c.st.length)))) := rfl
  have h4 := (h2.snoc h3 ⟨fun o h => by simp [consumeRoutine] at h, trivial⟩).snoc h4 ⟨trivial, trivial⟩
  refine ⟨c.st, _, _, s', hh, by omega, h4, ?_, hh'⟩
  simp only [outer_append, ho]
  rfl

end Verif.Stack
