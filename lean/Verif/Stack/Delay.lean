import Verif.Delay
import Verif.Stack.Forever

/-!
# Stack: what can delay a call (C74)

No code of /repo is modelled here. A `compare_exchange` of one thread fails because another thread has changed `tos` or `pool_`. Calls that find the
stack empty, fail for lack of a node, or only look (`empty`) change neither.
-/

namespace Verif.Stack
open Lin

variable {α : Type}

/-- Calls of `push`, `pop` (or `consume_one`) and `empty`. -/
def Op.plain : Op α → Bool
  | .push _ _ | .pop _ | .empty => true
  | _ => false

/-- A call of thread `u`. -/
def callOf (u : Nat) : Event (Op α) (Ret α) → Bool
  | .inv t _ => t == u
  | .res _ _ => false

/-- The return of a call that may have changed the stack: neither `pop` on an empty stack, nor `push` without a node, nor `empty`. -/
def changed : Event (Op α) (Ret α) → Bool
  | .inv _ _ => false
  | .res _ (.popped none) | .res _ (.pushed false) | .res _ (.isEmpty _) => false
  | .res _ _ => true

/-- How often a thread may have changed `tos` and `pool_` in the call it is in. -/
def made : PC α → Nat
  | .constr _ _ _ | .lload _ _ _ | .lset _ _ _ _ | .lcas _ _ _ _ | .papply _ _ | .pdestroy _ _ | .free _ _ _ => 1
  | .ret (.popped none) | .ret (.pushed false) | .ret (.isEmpty _) => 0
  | .ret _ | .err => 2
  | _ => 0

/-- Places in such calls. -/
def plain : PC α → Bool
  | .idle | .alloc _ (.one _) _ | .constr _ (.one _) _ | .pload _ | .ptest _ _ | .pcas _ _ _ | .papply _ _ | .pdestroy _ _ | .free (.pop _) _ _ | .eload
  | .ret _ | .err => true
  | .lload _ _ (.pushed true) | .lset _ _ _ (.pushed true) | .lcas _ _ _ (.pushed true) => true
  | _ => false

theorem made_le (p : PC α) : made p ≤ 2 := by
  unfold made; split <;> omega

theorem aStep_null_pool {Op : Type} {cfg : Cfg} {b : Bool} {h h' : Heap α} {a : APC} {ch : Choice Op} {r}
    (hs : aStep cfg b h a ch = some (h', r)) (hr : r = .null ∨ r = .badAlloc) : h'.pool = h.pool := by
  apply Classical.byContradiction
  intro hne
  obtain ⟨o, nx, rfl, h1⟩ := aStep_pool hs hne
  cases ch <;> simp only [aStep] at hs <;> try (simp at hs; done)
  · split at hs
    · split at hs <;> simp at hs
      rcases hr with rfl | rfl <;> simp at hs
    · simp at hs; rcases hr with rfl | rfl <;> simp at hs
  · simp at hs; rcases hr with rfl | rfl <;> simp at hs

variable {cfg : Cfg} {s : St α} {t : Nat}

theorem call_event {p p' : PC α} {o s' e} (hs : tstep cfg t s p (.call o) = some (s', p', e)) : e = some (.inv t o) := by
  have ha : ∀ b a, aStep cfg b s.heap a (Choice.call o) = none := by
    intro b a
    cases a <;> simp only [aStep]
    split <;> (try split) <;> rfl
  have hd : ∀ n d, dStep s.heap n d (Choice.call o) = none := by
    intro n d
    cases d <;> simp only [dStep]
  cases p with
  | idle => simp only [tstep, Option.map_eq_some_iff] at hs; obtain ⟨_, _, hs⟩ := hs; cases hs; rfl
  | alloc b k a => simp [tstep, ha] at hs
  | free k n d => simp [tstep, hd] at hs
  | ptest thr o' => simp only [tstep] at hs; split at hs <;> simp_all
  | rsv k => cases k <;> simp [tstep] at hs
  | _ => simp [tstep] at hs

/-- A step and the changes it makes. -/
theorem made_step {p p' : PC α} {ch s' e} (ht : Trans cfg t s p ch s' p' e) (hp : plain p = true) (ho : ∀ o, ch = .call o → o.plain = true) :
    plain p' = true ∧ chg s s' + made p ≤ made p' + 2 * e.toList.countP changed := by
  have hd := fun h : Heap α => diff_le s.heap.pool h.pool
  have hd' := fun w => diff_le s.tos w
  cases ht with
  | @call o q hq =>
    have := ho o rfl
    cases o <;> simp [Op.plain] at this <;> simp [start] at hq <;> subst hq <;> simp [plain, made, chg_self]
  | @allocMore b k a ch h a' hs =>
    obtain ⟨rfl, -⟩ := aStep_more_cost 0 hs
    cases k <;> simp [plain] at hp
    simp [plain, made, chg_self]
  | @allocGot b k a ch h n hs =>
    cases k <;> simp [plain] at hp
    have := hd h
    simp [plain, made, chg, diff_self]; omega
  | @allocNull b k a ch h hs =>
    cases k <;> simp [plain] at hp
    have := aStep_null_pool hs (.inl rfl)
    simp [plain, made, chg, diff_self, onNull, this]
  | @allocBad b k a ch h hs =>
    cases k <;> simp [plain] at hp
    have := aStep_null_pool hs (.inr rfl)
    simp [plain, made, chg, diff_self, onThrow, this]
  | @constrThrow b k n => cases k <;> simp [plain] at hp; simp [plain, made, chg_self, onThrow]
  | constrOne h => simp [plain, made, chg, diff_self, Heap.setData]
  | @lload top e r => cases r <;> simp [plain] at hp; rename_i b; cases b <;> simp at hp; simp [plain, made, chg_self]
  | @lset top e o r => cases r <;> simp [plain] at hp; rename_i b; cases b <;> simp at hp; simp [plain, made, chg, diff_self, Heap.setNextPtr]
  | @lcasOk top e o r h =>
    cases r <;> simp [plain] at hp; rename_i b; cases b <;> simp at hp
    have := hd' ⟨some top, o.v.tag⟩
    simp [plain, made, chg, diff_self]; omega
  | @lcasFail top e o r ch h => cases r <;> simp [plain] at hp; rename_i b; cases b <;> simp at hp; simp [plain, made, chg_self]
  | @pcasOk thr o nx n h1 h2 =>
    have := hd' ⟨nx, cfg.nextTag o.v.tag⟩
    simp [plain, made, chg, diff_self]; omega
  | pdestroy h => simp [plain, made, chg, diff_self, Heap.setData]
  | @freeMore k n d ch h d' hs =>
    cases k <;> simp [plain] at hp
    have := (dStep_copy hs).1
    simp [plain, made, chg, diff_self, this]
  | @freeDone k n d ch h hs =>
    cases k <;> simp [plain] at hp
    have := hd h
    simp [plain, made, chg, diff_self, onFreed]; omega
  | @ret r =>
    refine ⟨rfl, ?_⟩
    rw [chg_self]
    cases r with
    | pushed b => cases b <;> simp [made, changed]
    | popped v => cases v <;> simp [made, changed]
    | _ => simp [made, changed]
  | _ => first
    | (simp [plain] at hp; done)
    | simp [plain, made, chg_self]

variable {n T u k f : Nat} {h : History (Op α) (Ret α)} {C : Conf α}

/-- **C74.** The steps of a thread, except spurious failures: at most 17 for every call it makes, one for each spurious failure, and four for every call of any
thread that changed the stack, or is still at work. -/
theorem stack_delay (hx : Own (mach α cfg) (okFresh cfg) spurious T u (Conf.initial n) h C k f)
    (ho : ∀ t o, Event.inv t o ∈ h → o.plain = true) : k ≤ 17 * h.countP (callOf u) + f + 4 * (h.countP changed + T) := by
  suffices hh : (∀ t, plain (C.pc t) = true) ∧ ∃ c, k + cost 0 8 C.s (C.pc u) ≤ 17 * h.countP (callOf u) + f + 2 * c ∧
      c ≤ 2 * h.countP changed + sumTo (fun t => made (C.pc t)) T by
    obtain ⟨-, c, h1, h2⟩ := hh
    have := sumTo_le (f := fun t => made (C.pc t)) (c := 2) (fun t => made_le _) T
    omega
  induction hx with
  | refl => exact ⟨fun _ => rfl, 0, by simp [Conf.initial, cost], by simp⟩
  | @step h C t ch s' p' e k f hx ht hs hok ih =>
    obtain ⟨h1, c, h2, h3⟩ := ih fun t o hm => ho t o (by simp [hm])
    obtain ⟨g, x, hi, _⟩ := FreshExec.inv hx.steps
    obtain ⟨g', x', hi', _, hg, _⟩ := hi.step hs hok.1 hok.2
    have htr := trans_of_tstep hs
    obtain ⟨h4, h5⟩ := made_step htr (h1 t) (fun o hc => by
      subst hc
      exact ho t o (by rw [call_event hs]; simp))
    refine ⟨fun v => ?_, c + chg C.s s', ?_, ?_⟩
    · by_cases hv : v = t
      · subst hv; simpa using h4
      · simpa [upd_ne _ _ _ hv] using h1 v
    · rw [List.countP_append]
      by_cases htu : t = u
      · subst htu
        simp only [upd_self, true_and]
        cases hsp : spurious (C.pc t) ch
        · have h6 := own_cost (W := 0) (K := 8) (Nat.le_refl _) hi.si (hi.loc t) hok.1 htr (by rintro rfl; simp [spurious] at hsp)
          rcases h6 with h6 | ⟨⟨rev, thr, o, h6⟩, -⟩
          · unfold Pays at h6
            have h7 : callCosts (opCost 0 8) e.toList ≤ 17 * e.toList.countP (callOf t) := by
              cases e with
              | none => simp [callCosts]
              | some ev =>
                cases ev with
                | res => simp [callCosts]
                | inv v o =>
                  have h8 := ho v o (by simp)
                  have h9 : v = t := by
                    generalize C.pc t = p at htr
                    cases htr
                    rfl
                  subst h9
                  cases o <;> simp [Op.plain] at h8 <;> simp [callCosts, opCost, callOf]
            simp
            omega
          · have := h1 t
            rw [h6] at this
            simp [plain] at this
        · have : ch = .spur := by cases ch <;> simp [spurious] at hsp; rfl
          subst this
          obtain ⟨rfl, rfl, h6⟩ := spur_cost (W := 0) (K := 8) htr
          simp
          omega
      · simp only [upd_ne _ _ _ (Ne.symm htu)]
        have := others_cost (W := 0) (K := 8) (hg.rely hi.si hi'.si (Ne.symm htu)) (hi.loc u)
        simp [htu]
        omega
    · rw [List.countP_append]
      have := sumTo_upd (fun v => made (C.pc v)) t (made p') ht
      have h6 : (fun v => made (upd C.pc t p' v)) = upd (fun v => made (C.pc v)) t (made p') := by
        funext v; simp only [upd_apply]; split <;> rfl
      simp only [h6]
      omega

namespace Code
open Text

variable {R : Rep}

/-- **C74 (the program text).** Every statement counts as a step: `62` is the length of the longest path through the text without access, and two. -/
theorem stack_text_delay (hf : R.Faithful) (hn : n ≤ R.limit) {C : TConf R α}
    (hx : Own (program R α).mach (Program.ok fun _ o => ∀ b, o ≠ .pushRange b []) (Text.spurious isSpur) T u
      ⟨(SConf.initial R n).s, fun _ => .idle⟩ h C k f) (ho : ∀ t o, Event.inv t o ∈ h → o.plain = true) :
    k ≤ 62 * (17 * h.countP (callOf u) + 2 * f + 4 * (h.countP changed + T)) := by
  obtain ⟨D, k', h1, -, -, r, -, h2⟩ := (refines hf).own Failures.all (fun _ _ hx t => text_inv hf hn hx t) hx
  have h3 : ∃ E, Own (mach α R.cfg) (okFresh R.cfg) spurious T u (Conf.initial n) h E k' f ∧ ConfRel R E D := by
    have hsp : (fun _ => isSpur) = (spuriousW : SPC R.K α → SChoice R.K (Op α) α → Bool) := by
      funext _ ch; cases ch <;> rfl
    rw [hsp] at h1
    clear h2 hx ho
    induction h1 with
    | refl => exact ⟨_, .refl, .initial hf hn⟩
    | @step h D t ch w' q' e k f _ ht hs hok ih =>
      obtain ⟨E, hx, hr⟩ := ih
      obtain ⟨s', p', h1, h2, h3⟩ := conf_step hf hr hs hok
      have h4 := Own.step hx ht h1 h2
      refine ⟨_, ?_, h3⟩
      cases ch <;> exact h4
  obtain ⟨E, h3, -⟩ := h3
  have := stack_delay h3 ho
  have : 62 * (k' + f) ≤ 62 * (17 * h.countP (callOf u) + 2 * f + 4 * (h.countP changed + T)) := Nat.mul_le_mul_left _ (by omega)
  omega

section
variable {C : Nat → TConf R α} {t : Nat → Nat} {ch : Nat → TChoice (SChoice R.K (Op α) α) (Op α)} {e : Nat → Option (Event (Op α) (Ret α))}

/-- **C74 (calls return).** An execution without end of finitely many threads that call `push`, `pop` and `empty`. If compare-exchanges fail spuriously only
finitely often, and only finitely many calls return that changed the stack, then every call of a thread that goes on making steps returns. -/
theorem stack_text_calls_return (hf : R.Faithful) (hn : n ≤ R.limit)
    (hx : Forever (program R α).mach (Program.ok fun _ o => ∀ b, o ≠ .pushRange b []) T C t ch e)
    (h0 : C 0 = ⟨(SConf.initial R n).s, fun _ => .idle⟩) (ho : ∀ i t o, e i = some (.inv t o) → o.plain = true)
    (hspur : ∃ N, ∀ i, N ≤ i → Text.spurious isSpur ((C i).pc (t i)) (ch i) = false)
    (hch : ∃ N, ∀ i, N ≤ i → ∀ ev, e i = some ev → changed ev = false) (hu : ∀ i, ∃ j, i ≤ j ∧ t j = u) (i : Nat) :
    ∃ j, i ≤ j ∧ (C j).pc u = .idle := by
  apply Classical.byContradiction
  intro hno
  have hno : ∀ j, i ≤ j → (C j).pc u ≠ .idle := fun j hj hp => hno ⟨j, hj, hp⟩
  obtain ⟨N, hN⟩ := hspur
  obtain ⟨M, hM⟩ := hch
  have hcall : ∀ j, i ≤ j → ∀ ev, e j = some ev → callOf u ev = false := by
    intro j hj ev he
    obtain ⟨p', h1, -⟩ := hx.step j
    rw [he] at h1
    cases ev with
    | res => rfl
    | inv v o =>
      rcases Program.lawful _ _ _ _ _ _ _ _ h1 with ⟨h2, o', h3⟩ | ⟨r, _, _, h3⟩
      · cases h3
        simp only [callOf, beq_eq_false_iff_ne]
        intro h4
        exact hno j hj (by rw [← h4]; exact h2)
      · cases h3
  obtain ⟨m, hm⟩ := stepsOf_unbounded hu (62 * (17 * i + 2 * N + 4 * (M + T)) + N + 1)
  obtain ⟨k, f, h1, h2, h3, -⟩ := hx.own hN u m
  rw [h0] at h1
  have h4 := stack_text_delay hf hn h1 (fun t o hm => by obtain ⟨j, hj⟩ := mem_firstEvents hm; exact ho j t o hj)
  have h5 := countP_bound hcall m
  have h6 := countP_bound hM m
  omega
end

end Code
end Verif.Stack
