import Verif.Delay
import Verif.Freelist.Progress

/-!
# The freelists on their own: what can delay a call (C78)

No code of /repo is modelled here. A `compare_exchange_weak` fails because another thread has changed `pool_`. Calls of `construct` that return null do not
change it. As in C70, calls may be invalid, and nothing is assumed about the representation of the words.
-/

namespace Verif.Freelist
open Lin Text

variable {α : Type} {R : Rep} {n T u k f : Nat} {h : History (Op α) Ret}

/-- A call of thread `u`. -/
def callOf (u : Nat) : Event (Op α) Ret → Bool
  | .inv t _ => t == u
  | .res _ _ => false

/-- The return of a call that may have changed the freelist: every one, except that of a `construct` that returns null. -/
def changed : Event (Op α) Ret → Bool
  | .inv _ _ | .res _ (.node none) => false
  | .res _ _ => true

/-- How often a thread may have changed `pool_` in the call it is in. -/
def made {K : Words} : PC K α → Nat
  | .ret (.node none) => 0
  | .constr _ _ _ | .ret _ | .err => 1
  | _ => 0

theorem made_le {K : Words} (p : PC K α) : made p ≤ 1 := by
  unfold made; split <;> omega

/-- Has `pool_` changed? -/
def chg {K : Words} (m m' : SMem K α) : Nat := open Classical in if m'.pool = m.pool then 0 else 1

theorem chg_self {K : Words} (m : SMem K α) : chg m m = 0 := by simp [chg]
theorem chg_le {K : Words} (m m' : SMem K α) : chg m m' ≤ 1 := by unfold chg; split <;> omega

theorem others_cost {K : Words} (W : Nat) (m m' : SMem K α) (p : PC K α) : cost W m' p ≤ cost W m p + 2 * chg m m' := by
  by_cases hm : m'.pool = m.pool
  · rw [cost_same W hm]; omega
  · have := cost_others W m m' p
    simp [chg, hm]; omega

/-- A step and the changes it makes. -/
theorem made_step {t : Nat} {s s' : SMem R.K α} {p p' : PC R.K α} {ch e} (hs : step R t s p ch = some (s', p', e)) :
    chg s s' + made p ≤ made p' + e.toList.countP changed := by
  have hle := chg_le s s'
  have hpay : chg s s' = 0 ∨ cost 100 s' p' + 101 ≤ cost 100 s p + callCosts (fun _ => 106) e.toList := by
    by_cases hsp : isSpur ch = true
    · obtain ⟨rfl, -⟩ := (cost_own (W := 100) hs).2 hsp
      exact .inl (chg_self _)
    · have h1 := (cost_own (W := 100) hs).1 (by simpa using hsp)
      by_cases hm : s'.pool = s.pool
      · exact .inl (by simp [chg, hm])
      · right; simp only [hm, if_false] at h1; omega
  cases p with
  | idle =>
    cases ch with
    | call o =>
      cases o <;> simp only [step, Option.some.injEq, Prod.mk.injEq] at hs <;> obtain ⟨rfl, rfl, rfl⟩ := hs <;> simp [made, chg_self]
    | _ => simp [step] at hs
  | alloc b v thr a =>
    simp only [step] at hs
    cases ha : saStep R b s a ch with
    | none => simp [ha] at hs
    | some y =>
      obtain ⟨m, r⟩ := y
      rw [ha] at hs
      have hb : cost 100 s (.alloc b v thr a : PC R.K α) ≤ 106 := by
        cases a <;> simp only [cost, stale] <;> (repeat' split) <;> omega
      cases r with
      | more a' =>
        cases hs
        have : 103 ≤ cost 100 s' (.alloc b v thr a' : PC R.K α) := by cases a' <;> simp only [cost] <;> omega
        simp [callCosts] at hpay
        simp [made]; omega
      | got n => cases hs; simp [made]; omega
      | null =>
        cases hs
        have : s' = s := by
          cases a <;> simp only [saStep] at ha
          · cases ch <;> simp at ha
          all_goals (repeat' split at ha) <;> simp at ha <;> exact ha.symm
        subst this
        simp [made, chg_self]
      | badAlloc => cases hs; simp [made]; omega
  | constr v thr k =>
    cases ch <;> simp only [step, reduceCtorEq] at hs
    by_cases hd : (s.data k).isSome
    · simp [hd] at hs; obtain ⟨rfl, rfl, rfl⟩ := hs; simp [made, chg_self]
    · by_cases hth : thr = true
      · simp [hd, hth] at hs; obtain ⟨rfl, rfl, rfl⟩ := hs; simp [made, chg_self]
      · simp [hd, hth] at hs; obtain ⟨rfl, rfl, rfl⟩ := hs; simp [made, chg, SMem.setData]
  | destroy k =>
    cases ch <;> simp only [step, reduceCtorEq] at hs
    by_cases hd : (s.data k).isSome
    · simp [hd] at hs; obtain ⟨rfl, rfl, rfl⟩ := hs; simp [made, chg, SMem.setData]
    · simp [hd] at hs; obtain ⟨rfl, rfl, rfl⟩ := hs; simp [made, chg_self]
  | free k d =>
    simp only [step] at hs
    cases ha : sdStep R s k d ch with
    | none => simp [ha] at hs
    | some y =>
      obtain ⟨m, r⟩ := y
      rw [ha] at hs
      have hb : cost 100 s (.free k d : PC R.K α) ≤ 105 := by
        cases d <;> simp only [cost, stale] <;> (repeat' split) <;> omega
      cases r with
      | some d' =>
        cases hs
        have : 102 ≤ cost 100 s' (.free k d' : PC R.K α) := by cases d' <;> simp only [cost] <;> omega
        simp [callCosts] at hpay
        simp [made]; omega
      | none => cases hs; simp [made]; omega
  | ret r =>
    cases ch <;> simp [step] at hs
    obtain ⟨rfl, rfl, rfl⟩ := hs
    rw [chg_self]
    cases r with
    | node o => cases o <;> simp [made, changed]
    | _ => simp [made, changed]
  | err => cases ch <;> simp [step] at hs

theorem inv_thread {t v : Nat} {s s' : SMem R.K α} {p p' : PC R.K α} {ch o} (hs : step R t s p ch = some (s', p', some (.inv v o))) : v = t := by
  unfold step at hs
  (repeat' split at hs) <;> simp at hs <;> exact hs.2.2.1.symm

theorem freelist_words_delay {C : MConf (SMem R.K α) (PC R.K α)}
    (hx : Own (smach α R) (okFresh R) (fun _ => isSpur) T u ⟨SMem.initial R n, fun _ => .idle⟩ h C k f) :
    k ≤ 6 * h.countP (callOf u) + f + 2 * (h.countP changed + T) := by
  suffices hh : ∃ c, k + cost 0 C.s (C.pc u) ≤ 6 * h.countP (callOf u) + f + 2 * c ∧ c ≤ h.countP changed + sumTo (fun t => made (C.pc t)) T by
    obtain ⟨c, h1, h2⟩ := hh
    have := sumTo_le (f := fun t => made (C.pc t)) (c := 1) (fun t => made_le _) T
    omega
  induction hx with
  | refl => exact ⟨0, by simp [cost], by simp⟩
  | @step h C t ch s' p' e k f hx ht hs hok ih =>
    obtain ⟨c, h2, h3⟩ := ih
    have h5 := made_step hs
    refine ⟨c + chg C.s s', ?_, ?_⟩
    · rw [List.countP_append]
      by_cases htu : t = u
      · subst htu
        simp only [upd_self, true_and]
        obtain ⟨h6, h7⟩ := cost_own (W := 0) hs
        cases hsp : isSpur ch
        · have h6 := h6 hsp
          have h8 : callCosts (fun _ => 0 + 6) e.toList ≤ 6 * e.toList.countP (callOf t) := by
            cases e with
            | none => simp [callCosts]
            | some ev =>
              cases ev with
              | res => simp [callCosts]
              | inv v o =>
                cases inv_thread hs
                simp [callCosts, callOf]
          simp
          omega
        · obtain ⟨rfl, h7, rfl⟩ := h7 hsp
          simp
          omega
      · simp only [upd_ne _ _ _ (Ne.symm htu)]
        have := others_cost 0 C.s s' (C.pc u)
        simp [htu]
        omega
    · rw [List.countP_append]
      have := sumTo_upd (fun v => made (C.pc v)) t (made p') ht
      have h6 : (fun v => made (upd C.pc t p' v)) = upd (fun v => made (C.pc v)) t (made p') := by
        funext v; simp only [upd_apply]; split <;> rfl
      simp only [h6]
      omega

/-- **C78.** The statements a thread executes: `42` (the length of the longest path through the text without access, and two) times at most six for every call
it makes, two for each spurious failure, and two for every call of any thread that changed the freelist, or is still at work. -/
theorem freelist_delay {C : TConf R α}
    (hx : Own (program R α).mach (Program.ok fun _ _ => True) (Text.spurious isSpur) T u ⟨SMem.initial R n, fun _ => .idle⟩ h C k f) :
    k ≤ 42 * (6 * h.countP (callOf u) + 2 * f + 2 * (h.countP changed + T)) := by
  obtain ⟨D, k', h1, -, -, r, -, h2⟩ := refines.own Failures.all (fun _ _ _ _ => trivial) hx
  have := freelist_words_delay h1
  have : 42 * (k' + f) ≤ 42 * (6 * h.countP (callOf u) + 2 * f + 2 * (h.countP changed + T)) := Nat.mul_le_mul_left _ (by omega)
  omega

section
variable {C : Nat → TConf R α} {t : Nat → Nat} {ch : Nat → TChoice (SChoice R.K (Op α) α) (Op α)} {e : Nat → Option (Event (Op α) Ret)}

/-- **C78 (calls return).** An execution without end of finitely many threads. If compare-exchanges fail spuriously only finitely often, and only finitely many
calls return that changed the freelist, then every call of a thread that goes on making steps returns. -/
theorem freelist_calls_return (hx : Forever (program R α).mach (Program.ok fun _ _ => True) T C t ch e)
    (h0 : C 0 = ⟨SMem.initial R n, fun _ => .idle⟩) (hspur : ∃ N, ∀ i, N ≤ i → Text.spurious isSpur ((C i).pc (t i)) (ch i) = false)
    (hch : ∃ N, ∀ i, N ≤ i → ∀ ev, e i = some ev → changed ev = false) (hu : ∀ i, ∃ j, i ≤ j ∧ t j = u) (i : Nat) :
    ∃ j, i ≤ j ∧ (C j).pc u = .idle := by
  apply Classical.byContradiction
  intro hno
  have hno : ∀ j, i ≤ j → (C j).pc u ≠ .idle := fun j hj hp => hno ⟨j, hj, hp⟩
  obtain ⟨N, hN⟩ := hspur
  obtain ⟨M, hM⟩ := hch
  have hcall : ∀ j, i ≤ j → ∀ ev, e j = some ev → callOf u ev = false := by
    intro j hj ev he
    obtain ⟨p', h1, -⟩ := hx.step j
    rw [he] at h1
    cases ev with
    | res => rfl
    | inv v o =>
      rcases Program.lawful _ _ _ _ _ _ _ _ h1 with ⟨h2, o', h3⟩ | ⟨r, _, _, h3⟩
      · cases h3
        simp only [callOf, beq_eq_false_iff_ne]
        intro h4
        exact hno j hj (by rw [← h4]; exact h2)
      · cases h3
  obtain ⟨m, hm⟩ := stepsOf_unbounded hu (42 * (6 * i + 2 * N + 2 * (M + T)) + N + 1)
  obtain ⟨k, f, h1, h2, h3, -⟩ := hx.own hN u m
  rw [h0] at h1
  have h4 := freelist_delay h1
  have h5 := countP_bound hcall m
  have h6 := countP_bound hM m
  omega
end

end Verif.Freelist
