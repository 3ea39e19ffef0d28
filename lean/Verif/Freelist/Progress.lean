import Verif.Forever
import Verif.Freelist.Props

/-!
# The freelists on their own: progress (C70)

`construct` and `destruct` are lock-free, for arbitrary calls: also if a node is given back twice. Nothing is assumed about the representation of the
words. No further code of /repo is modelled here.
-/

namespace Verif.Freelist
open Lin Text

variable {α : Type} {R : Rep} {n : Nat} {h : History (Op α) Ret} {C : TConf R α}

/-- `2` if the word differs from `pool_`, so that the compare-exchange will fail. -/
def stale {K : Words} (m : SMem K α) (o : SSnap K) : Nat := if m.pool = o.v then 0 else 2

/-- How many steps a thread still makes if no other thread changes `pool_`, and `W` for the change it makes itself. -/
def cost {K : Words} (W : Nat) (m : SMem K α) : PC K α → Nat
  | .idle => 0
  | .alloc _ _ _ .load => W + 5
  | .alloc _ _ _ (.test o) => W + 4 + stale m o
  | .alloc _ _ _ (.cas o _) => W + 3 + stale m o
  | .constr _ _ _ => 2
  | .destroy _ => W + 5
  | .free _ .load => W + 4
  | .free _ (.set o) => W + 3 + stale m o
  | .free _ (.cas o) => W + 2 + stale m o
  | .ret _ => 1
  | .err => 0

theorem stale_le {K : Words} (m m' : SMem K α) (o : SSnap K) : stale m' o ≤ stale m o + 2 := by
  unfold stale; split <;> omega

theorem cost_others {K : Words} (W : Nat) (m m' : SMem K α) (p : PC K α) : cost W m' p ≤ cost W m p + 2 := by
  cases p with
  | alloc b v thr a =>
    cases a <;> simp only [cost] <;> (try have := stale_le m m' (by assumption)) <;> omega
  | free n d => cases d <;> simp only [cost] <;> (try have := stale_le m m' (by assumption)) <;> omega
  | _ => simp [cost]

theorem cost_same {K : Words} (W : Nat) {m m' : SMem K α} (hm : m'.pool = m.pool) (p : PC K α) : cost W m' p = cost W m p := by
  have hst : ∀ o, stale m' o = stale m o := fun o => by simp only [stale, hm]
  cases p with
  | alloc b v thr a => cases a <;> simp only [cost, hst]
  | free n d => cases d <;> simp only [cost, hst]
  | _ => rfl

/-- A step pays for itself, and if it changes `pool_` also `W`. -/
theorem cost_own {W t : Nat} {s s' : SMem R.K α} {p p' : PC R.K α} {ch e} (hs : step R t s p ch = some (s', p', e)) :
    (isSpur ch = false → cost W s' p' + 1 + (if s'.pool = s.pool then 0 else W) ≤ cost W s p + callCosts (fun _ => W + 6) e.toList) ∧
      (isSpur ch = true → s' = s ∧ cost W s' p' ≤ cost W s p + 1 ∧ e = none) := by
  have h0 : ∀ m : SMem R.K α, stale m m.poolSnap = 0 := fun m => by simp [stale, SMem.poolSnap]
  cases p with
  | idle =>
    cases ch with
    | call o =>
      cases o <;> simp only [step, Option.some.injEq, Prod.mk.injEq] at hs <;> obtain ⟨rfl, rfl, rfl⟩ := hs <;>
        simp [cost, isSpur, callCosts]
    | _ => simp [step] at hs
  | alloc b v thr a =>
    cases a with
    | load =>
      cases ch <;> simp only [step, saStep, Option.some.injEq, Prod.mk.injEq, reduceCtorEq] at hs
      obtain ⟨rfl, rfl, rfl⟩ := hs
      simp [cost, isSpur, h0]
    | test o =>
      simp only [step, saStep] at hs
      cases hn : R.K.node (R.K.ptr o.v) with
      | none =>
        rw [hn] at hs
        by_cases hb : (R.fixed || b) = true
        · simp only [hb, if_true] at hs
          cases ch <;> simp only [Option.some.injEq, Prod.mk.injEq, reduceCtorEq] at hs
          obtain ⟨rfl, rfl, rfl⟩ := hs
          simp [cost, isSpur]; omega
        · simp only [hb] at hs
          cases ch with
          | go =>
            by_cases hl : s.nalloc < R.limit
            · simp [hl] at hs
              obtain ⟨rfl, rfl, rfl⟩ := hs
              simp [cost, isSpur, SMem.malloc]; omega
            · simp [hl] at hs
          | throw => simp at hs; obtain ⟨rfl, rfl, rfl⟩ := hs; simp [cost, isSpur]; omega
          | _ => simp at hs
      | some k =>
        rw [hn] at hs
        cases ch with
        | go => simp at hs; obtain ⟨rfl, rfl, rfl⟩ := hs; simp [cost, isSpur]; omega
        | racy x =>
          by_cases hv : s.poolVer = o.ver
          · simp [hv] at hs
          · simp [hv] at hs; obtain ⟨rfl, rfl, rfl⟩ := hs; simp [cost, isSpur]; omega
        | _ => simp at hs
    | cas o nx =>
      cases ch with
      | go =>
        simp only [step, saStep] at hs
        by_cases hp : s.pool = o.v
        · simp only [hp, if_true] at hs
          cases hn : R.K.node (R.K.ptr o.v) with
          | none => simp [hn] at hs
          | some k =>
            simp [hn] at hs
            obtain ⟨rfl, rfl, rfl⟩ := hs
            refine ⟨fun _ => ?_, fun h => by simp [isSpur] at h⟩
            simp only [cost]
            split <;> omega
        · simp [hp] at hs
          obtain ⟨rfl, rfl, rfl⟩ := hs
          have : stale s o = 2 := by simp [stale, hp]
          simp [cost, isSpur, h0, this]
      | spur =>
        simp [step, saStep] at hs
        obtain ⟨rfl, rfl, rfl⟩ := hs
        simp [cost, isSpur, h0]
      | _ => simp [step, saStep] at hs
  | constr v thr k =>
    cases ch <;> simp only [step, reduceCtorEq] at hs
    by_cases hd : (s.data k).isSome
    · simp [hd] at hs; obtain ⟨rfl, rfl, rfl⟩ := hs; simp [cost, isSpur, callCosts]
    · by_cases hth : thr = true
      · simp [hd, hth] at hs; obtain ⟨rfl, rfl, rfl⟩ := hs; simp [cost, isSpur]
      · simp [hd, hth] at hs; obtain ⟨rfl, rfl, rfl⟩ := hs; simp [cost, isSpur, SMem.setData]
  | destroy k =>
    cases ch <;> simp only [step, reduceCtorEq] at hs
    by_cases hd : (s.data k).isSome
    · simp [hd] at hs; obtain ⟨rfl, rfl, rfl⟩ := hs; simp [cost, isSpur, SMem.setData]
    · simp [hd] at hs; obtain ⟨rfl, rfl, rfl⟩ := hs; simp [cost, isSpur, callCosts]
  | free k d =>
    cases d with
    | load =>
      cases ch <;> simp only [step, sdStep, Option.some.injEq, Prod.mk.injEq, reduceCtorEq] at hs
      obtain ⟨rfl, rfl, rfl⟩ := hs
      simp [cost, isSpur, h0]
    | set o =>
      cases ch <;> simp only [step, sdStep, Option.some.injEq, Prod.mk.injEq, reduceCtorEq] at hs
      obtain ⟨rfl, rfl, rfl⟩ := hs
      have h1 : stale (s.setLink k (R.K.ptr o.v)) o = stale s o := rfl
      have h2 : (s.setLink k (R.K.ptr o.v)).pool = s.pool := rfl
      simp [cost, isSpur, h1, h2]; omega
    | cas o =>
      cases ch with
      | go =>
        simp only [step, sdStep] at hs
        by_cases hp : s.pool = o.v
        · simp [hp] at hs
          obtain ⟨rfl, rfl, rfl⟩ := hs
          refine ⟨fun _ => ?_, fun h => by simp [isSpur] at h⟩
          simp only [cost]
          split <;> omega
        · simp [hp] at hs
          obtain ⟨rfl, rfl, rfl⟩ := hs
          have : stale s o = 2 := by simp [stale, hp]
          simp [cost, isSpur, h0, this]
      | spur =>
        simp [step, sdStep] at hs
        obtain ⟨rfl, rfl, rfl⟩ := hs
        simp [cost, isSpur, h0]
      | _ => simp [step, sdStep] at hs
  | ret r =>
    cases ch <;> simp [step] at hs
    obtain ⟨rfl, rfl, rfl⟩ := hs
    simp [cost, isSpur]
  | err => cases ch <;> simp [step] at hs

/-- The potential. -/
def potential {K : Words} (T : Nat) (C : MConf (SMem K α) (PC K α)) : Nat := sumTo (fun u => cost (2 * T) C.s (C.pc u)) T

theorem potential_step {T t : Nat} {C : MConf (SMem R.K α) (PC R.K α)} {ch s' p' e} (ht : t < T)
    (hs : (smach α R).step t C.s (C.pc t) ch = some (s', p', e)) :
    (isSpur ch = false → potential T ⟨s', upd C.pc t p'⟩ + 1 ≤ potential T C + callCosts (fun _ => 2 * T + 6) e.toList) ∧
      (isSpur ch = true → potential T ⟨s', upd C.pc t p'⟩ ≤ potential T C + callCosts (fun _ => 2 * T + 6) e.toList + 1) := by
  obtain ⟨h1, h2⟩ := cost_own (W := 2 * T) hs
  refine ⟨fun hsp => ?_, fun hsp => ?_⟩
  · have h1 := h1 hsp
    by_cases hm : s'.pool = C.s.pool
    · have := sumTo_pay (f := fun u => cost (2 * T) C.s (C.pc u)) (f' := fun u => cost (2 * T) s' (upd C.pc t p' u)) (t := t) (a := 1)
        (x := callCosts (fun _ => 2 * T + 6) e.toList) (c := 0) (by simp only [hm, if_true] at h1; simpa using h1)
        (fun u hu => by rw [upd_ne _ _ _ hu, cost_same _ hm]; omega) ht
      simpa [potential] using this
    · have := sumTo_pay (f := fun u => cost (2 * T) C.s (C.pc u)) (f' := fun u => cost (2 * T) s' (upd C.pc t p' u)) (t := t) (a := 1 + 2 * T)
        (x := callCosts (fun _ => 2 * T + 6) e.toList) (c := 2) (by simp only [hm, if_false] at h1; simp only [upd_self]; omega)
        (fun u hu => by rw [upd_ne _ _ _ hu]; exact cost_others _ _ _ _) ht
      simp only [potential]; omega
  · obtain ⟨rfl, h3, rfl⟩ := h2 hsp
    have := sumTo_pay (f := fun u => cost (2 * T) C.s (C.pc u)) (f' := fun u => cost (2 * T) C.s (upd C.pc t p' u)) (t := t) (a := 0) (x := 1)
      (c := 0) (by simpa using h3) (fun u hu => by simp [upd_ne _ _ _ hu]) ht
    simp only [potential, Option.toList_none, callCosts]; omega

/-- From any state whatsoever: the number of steps is bounded by the number of threads and of the calls made. -/
theorem freelist_bound {T k f : Nat} {C₀ C : MConf (SMem R.K α) (PC R.K α)}
    (hx : Counted (smach α R) (okFresh R) (fun _ => isSpur) T C₀ h C k f) : k ≤ potential T C₀ + callCosts (fun _ => 2 * T + 6) h + f := by
  have := hx.bound (potential T) (fun _ => 2 * T + 6) 1 (fun _ _ _ _ _ _ _ _ ht hs _ hsp => (potential_step ht hs).1 hsp)
    (fun _ _ _ _ _ _ _ _ ht hs _ hsp => (potential_step ht hs).2 hsp)
  omega

/-- Steps of the text and calls. -/
theorem freelist_text_bound {T k f : Nat}
    (hx : Counted (program R α).mach (Program.ok fun _ _ => True) (Text.spurious isSpur) T ⟨SMem.initial R n, fun _ => .idle⟩ h C k f) :
    k ≤ 42 * (callCosts (fun _ => 2 * T + 6) h + 2 * f) := by
  obtain ⟨D, k', r, h1, -, -, h2⟩ := refines.counted Failures.all (fun _ _ _ _ => trivial) hx
  have h3 := freelist_bound h1
  have h4 : potential T (⟨SMem.initial R n, fun _ => (smach α R).idle⟩ : MConf (SMem R.K α) (PC R.K α)) = 0 := by
    have := sumTo_le (f := fun _ => cost (2 * T) (SMem.initial (α := α) R n) (PC.idle : PC R.K α)) (c := 0) (fun _ => Nat.le_refl _) T
    simpa [potential, smach] using this
  have : 42 * (k' + f) ≤ 42 * (callCosts (fun _ => 2 * T + 6) h + 2 * f) := Nat.mul_le_mul_left _ (by omega)
  omega

/-- **C70 (lock-freedom).** Whatever calls `T` threads make, valid or not, the number of statements executed is bounded by the number of calls that have
returned and the number of compare-exchanges that failed although the word had the expected value: `42` is the length of the longest path through
the text without access, and two. -/
theorem freelist_lock_free {T k f : Nat}
    (hx : Counted (program R α).mach (Program.ok fun _ _ => True) (Text.spurious isSpur) T ⟨SMem.initial R n, fun _ => .idle⟩ h C k f) :
    k ≤ 42 * ((2 * T + 6) * (returns h + T) + 2 * f) := by
  have h3 := freelist_text_bound hx
  have h5 := callCosts_le (h := h) (cost := fun _ => 2 * T + 6) (B := 2 * T + 6) (fun _ _ _ => Nat.le_refl _)
  have h6 := Nat.mul_le_mul_left (2 * T + 6) (Program.calls_le _ hx)
  omega

section
variable {T : Nat} {C : Nat → TConf R α} {t : Nat → Nat} {ch : Nat → TChoice (SChoice R.K (Op α) α) (Op α)} {e : Nat → Option (Event (Op α) Ret)}

/-- **C70 (executions without end).** If compare-exchanges fail spuriously only finitely often, infinitely many calls return. -/
theorem freelist_always_returns (hx : Forever (program R α).mach (Program.ok fun _ _ => True) T C t ch e)
    (h0 : C 0 = ⟨SMem.initial R n, fun _ => .idle⟩) (hspur : ∃ N, ∀ i, N ≤ i → Text.spurious isSpur ((C i).pc (t i)) (ch i) = false) (i : Nat) :
    ∃ j, i ≤ j ∧ ∃ u r, e j = some (.res u r) :=
  hx.returns (A := 42) (c := 2) (cost := fun _ => 2 * T + 6) (fun hc => by rw [h0] at hc; exact freelist_text_bound hc)
    (fun hc => Program.calls_le _ hc) hspur i
end

theorem At.enabled {l : Loc R.K α} {a k p} (h : At l (.stm (.acc a) :: k) p) {t : Nat} {s : SMem R.K α}
    (hroom : R.fixed = true ∨ s.nalloc < R.limit) : ∃ y, a.run t s l .go = some y := by
  generalize hk : Item.stm (.acc a) :: k = K at h
  cases h with
  | alloc _ _ h => subst hk; exact h.enabled hroom
  | free h => subst hk; exact h.enabled
  | constr hv _ hn =>
    cases hk
    simp only [ctor, hv, hn]
    repeat' split
    all_goals exact ⟨_, rfl⟩
  | destroy hn => cases hk; exact Port.dtor_enabled (P := port R α) hn s
  | fin => simp at hk

/-- **C70 (never stuck).** A thread that is in a call can make a step, as long as the allocator has memory. -/
theorem freelist_enabled (hf : R.Faithful) (hn : n ≤ R.limit) (hx : Exec R n h C) (hd : Disciplined h) {t : Nat} (ht : C.pc t ≠ .idle)
    (hroom : R.fixed = true ∨ C.s.nalloc < R.limit) :
    ∃ ch y, (ch = .tau ∨ ch = .act .go) ∧ (program R α).mach.step t C.s (C.pc t) ch = some y := by
  obtain ⟨D, -, -, hp⟩ := freelist_refines hx
  obtain ⟨i, h1⟩ := hp t
  generalize hq : C.pc t = q at h1 ht
  cases q with
  | idle => exact (ht rfl).elim
  | err => exact (freelist_no_undefined_behaviour hf hn hx hd t hq).elim
  | ret r => exact ⟨.tau, _, .inl rfl, rfl⟩
  | run l k =>
    obtain ⟨_, -, h1⟩ := h1
    cases hc : ctl l k with
    | some x =>
      refine ⟨.tau, (C.s, .run x.1 x.2, none), .inl rfl, ?_⟩
      cases k with
      | nil => simp [ctl] at hc
      | cons => simp [Program.mach, hc]
    | none =>
      have h3 := Leads.stuck h1 hc
      match k, hc with
      | [], _ => exact ⟨.tau, _, .inl rfl, rfl⟩
      | .stm (.acc a) :: k, _ =>
        obtain ⟨⟨s', l', f⟩, h4⟩ := h3.enabled (t := t) hroom
        cases f <;> exact ⟨.act .go, _, .inr rfl, by simp only [Program.mach, h4]; rfl⟩

end Verif.Freelist
