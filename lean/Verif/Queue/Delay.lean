import Verif.Delay
import Verif.Queue.Forever

/-!
# Queue: what can delay a call (C76)

No code of /repo is modelled here. A `compare_exchange` of one thread fails because another thread has changed `head_`, `tail_`, the link of the last node,
or `pool_`. Calls that find the queue empty, fail for lack of a node, or only look (`empty`) change none of them, except that they may swing a `tail_` that
a `push` has left behind; that swing is counted with the `push`.
-/

namespace Verif.Queue
open Lin

variable {α : Type}

/-- Calls of `push`, `pop` and `empty`. -/
def Op.plain : Op α → Bool
  | .push _ _ | .pop | .empty => true
  | _ => false

/-- A call of thread `u`. -/
def callOf (u : Nat) : Event (Op α) (Ret α) → Bool
  | .inv t _ => t == u
  | .res _ _ => false

/-- The return of a call that may have changed the queue: neither `pop` on an empty queue, nor `push` without a node, nor `empty`. -/
def changed : Event (Op α) (Ret α) → Bool
  | .inv _ _ => false
  | .res _ (.popped none) | .res _ (.pushed false) | .res _ (.isEmpty _) => false
  | .res _ _ => true

/-- How many changes a thread may have made in the call it is in, among them the swing of `tail_` that becomes due when a node is linked. -/
def made : PC α → Nat
  | .constr _ _ _ | .nload _ _ _ | .nstore _ _ _ _ | .pTail _ | .pNext _ _ | .pCheck _ _ _ | .pCas _ _ _ | .swing (.retryPush _) _ _ | .cDestroy _ _
  | .free _ _ _ => 1
  | .ret (.popped none) | .ret (.pushed false) | .ret (.isEmpty _) => 0
  | .swing .donePush _ _ | .ret _ | .err => 3
  | _ => 0

/-- Places in such calls. -/
def calm : PC α → Bool
  | .rsv _ | .free (.rsv _) _ _ => false
  | _ => true

theorem made_le (p : PC α) : made p ≤ 3 := by
  unfold made; split <;> omega

variable {cfg : Cfg} {s : St α} {g : G} {σ : List α} {t : Nat} {st : Status (Op α) (Ret α)}

/-- A step and the changes it makes. -/
theorem made_step (hi : SI cfg s g σ) {p p' : PC α} (hl : Local cfg s g.F g.L (g.held t) st p) (hf : fresh cfg s p) {ch s' e}
    (ht : Trans cfg t s p ch s' p' e) (hp : calm p = true) (ho : ∀ u o, e = some (.inv u o) → o.plain = true) :
    calm p' = true ∧ chg s s' + lg s' + made p ≤ lg s + made p' + 3 * e.toList.countP changed := by
  have hlg := lg_le s
  have hpay := fun hsp => own_cost (W := 100) hi hl hf ht hsp
  cases ht with
  | @call o q hq =>
    have := ho t o rfl
    cases o <;> simp [Op.plain] at this <;> simp [start] at hq <;> subst hq <;> simp [calm, made, chg_self]
  | @allocMore b v a ch h a' ha =>
    obtain ⟨rfl, -⟩ := aStep_more_cost 0 ha
    simp [calm, made, chg_self]
  | @allocGot b v a ch h n ha =>
    have := hpay (by cases ch <;> first | rfl | exact absurd (aStep_spur ha) (by simp))
    have h2 := aCost_le 100 s.heap.pool a
    simp [Pays, cost, callCosts] at this
    simp [calm, made]; omega
  | @allocNull b v a ch h ha =>
    obtain ⟨rfl, _⟩ := aStep_inv (t := t) hi.heap hl.2.2 hf ha
    simp [calm, made, chg_self]
  | @allocBad b v a ch h ha =>
    obtain ⟨rfl, _⟩ := aStep_inv (t := t) hi.heap hl.2.2 hf ha
    simp [calm, made, chg_self]
  | constr _ =>
    have := hpay rfl
    simp [Pays, cost, callCosts] at this
    simp [calm, made]; omega
  | nstore =>
    have := hpay rfl
    simp [Pays, cost, callCosts, pushR] at this
    simp [calm, made]; omega
  | @pCas n T N x hx heq =>
    have := hpay rfl
    have h2 := cost_jump (W := 100) s s (.pCas n T N)
    simp [Pays, cost, callCosts, pushR, pushB] at this
    simp [calm, made]
    split at this <;> omega
  | @pCheck n T N h => unfold pBranch; split <;> simp [calm, made, chg_self]
  | @cCheck H T N h => unfold cBranch; (repeat' split) <;> simp [calm, made, chg_self]
  | @swing k T y heq =>
    obtain ⟨⟨x, hT, h1⟩, _⟩ := hl
    have hv : T.ver = s.tailVer := (cfg_M_or hT.1 hf (by rw [← hi.ttag, ← hT.2.1, heq])).symm
    have h6 : s.tnode = x := by simp [St.tnode, heq, hT.2.2.1]
    obtain ⟨h2, h3⟩ := lg_swing (y := y) (w := ⟨some y, cfg.nextTag T.v.tag⟩) (k := s.tailVer + 1) hi rfl (by rw [h6]; exact h1 hv)
    have h5 := dn_le s.tailVer (s.tailVer + 1)
    rw [h2, h3]
    cases k <;> simp [calm, made, onSwung, chg, dn_self, diff_self] <;> omega
  | @swingFail k T y hne => cases k <;> simp [calm, made, chg_self, onSwung]
  | @cCas H y v x heq hx =>
    have := hpay rfl
    have h2 := eg_le s
    simp [Pays, cost, callCosts, popR, popB] at this
    simp [calm, made]
    split at this <;> omega
  | cDestroy =>
    have := hpay rfl
    simp [Pays, cost, callCosts, fCost, dCost] at this
    simp [calm, made]; omega
  | @freeMore k n d ch h d' hd =>
    obtain ⟨h1, h2, hdl, _⟩ := hl
    obtain ⟨_, _, h3, _, h3'⟩ := dStep_inv (t := t) hi.heap (by rw [h1]; simp) h2 hdl hd
    obtain ⟨_, h4, _⟩ := dStep_cost 0 hd
    obtain ⟨h5, _⟩ := h4 d' rfl
    have h6 := (hi.mem _).2 hi.tnode_mem.2
    have h7 := h3 _ (str_not_held (t := t) hi h6 (by rw [h1]; simp))
    have h8 : lg ({ s with heap := h } : St α) = lg s := lg_congr h7
    cases k <;> simp [calm] at hp
    simp [calm, made, chg, h5, diff_self, dn_self, h3', h8]
  | @freeDone k n d ch h hd =>
    have := hpay (by cases ch <;> first | rfl | exact absurd rfl ((dStep_cost 0 hd).2.2 rfl).1)
    have h2 := dCost_le 100 s.heap.pool d
    cases k <;> simp [calm] at hp
    simp [Pays, cost, callCosts, onFreed, fCost] at this
    simp [calm, made, onFreed]; omega
  | @ret r =>
    refine ⟨rfl, ?_⟩
    rw [chg_self]
    cases r with
    | pushed b => cases b <;> simp [made, changed] <;> omega
    | popped v => cases v <;> simp [made, changed] <;> omega
    | _ => simp [made, changed] <;> omega
  | _ => first
    | (simp [calm] at hp; done)
    | simp [calm, made, chg_self]

variable {n T u k f : Nat} {h : History (Op α) (Ret α)} {C : Conf α}

/-- **C76.** The steps of a thread, except spurious failures: at most 17 for every call it makes, five for each spurious failure, and 39 for every call of any
thread that changed the queue, or is still at work. -/
theorem queue_delay (hx : Own (mach α cfg) (okFresh cfg) spurious T u (Conf.initial cfg n) h C k f)
    (ho : ∀ t o, Event.inv t o ∈ h → o.plain = true) : k ≤ 17 * h.countP (callOf u) + 5 * f + 39 * (h.countP changed + T) := by
  suffices hh : (∀ t, calm (C.pc t) = true) ∧ ∃ c, k + cost 0 C.s (C.pc u) ≤ 17 * h.countP (callOf u) + 5 * f + 13 * c ∧
      c + lg C.s ≤ 3 * h.countP changed + sumTo (fun t => made (C.pc t)) T by
    obtain ⟨-, c, h1, h2⟩ := hh
    have := sumTo_le (f := fun t => made (C.pc t)) (c := 3) (fun t => made_le _) T
    omega
  induction hx with
  | refl =>
    refine ⟨fun _ => rfl, 0, by simp [Conf.initial, cost], ?_⟩
    obtain ⟨_, e2, _, _, e5⟩ := ofHeap_initial (α := α) cfg n
    have h1 : lg (Conf.initial cfg n : Conf α).s = 0 := by simp [lg, St.tnode, Conf.initial, e2, e5]
    rw [h1]; simp
  | @step h C t ch s' p' e k f hx ht hs hok ih =>
    obtain ⟨h1, c, h2, h3⟩ := ih fun t o hm => ho t o (by simp [hm])
    obtain ⟨g, x, hi, _⟩ := FreshExec.inv hx.steps
    obtain ⟨g', x', hi', _, hg, _⟩ := hi.step hs hok
    have htr := trans_of_tstep hs
    obtain ⟨h4, h5⟩ := made_step hi.si (hi.loc t) hok htr (h1 t) (fun u o he => ho u o (by simp [he]))
    refine ⟨fun v => ?_, c + chg C.s s', ?_, ?_⟩
    · by_cases hv : v = t
      · subst hv; simpa using h4
      · simpa [upd_ne _ _ _ hv] using h1 v
    · rw [List.countP_append]
      by_cases htu : t = u
      · subst htu
        simp only [upd_self, true_and]
        cases hsp : spurious (C.pc t) ch
        · have h6 := own_cost (W := 0) hi.si (hi.loc t) hok htr hsp
          unfold Pays at h6
          have h7 : callCosts (opCost 0) e.toList ≤ 17 * e.toList.countP (callOf t) := by
            cases e with
            | none => simp [callCosts]
            | some ev =>
              cases ev with
              | res => simp [callCosts]
              | inv v o =>
                have h8 := ho v o (by simp)
                have h9 : v = t := by
                  generalize C.pc t = p at htr
                  cases htr
                  rfl
                subst h9
                cases o <;> simp [Op.plain] at h8 <;> simp [callCosts, opCost, callOf]
          simp
          omega
        · obtain ⟨rfl, rfl, h6⟩ := spur_cost (W := 0) hi.si (hi.loc t) htr hsp
          simp
          omega
      · simp only [upd_ne _ _ _ (Ne.symm htu)]
        have := others_cost (W := 0) (hg.rely hi.si hi'.si (Ne.symm htu)) hi.si (C.pc u)
        simp [htu]
        omega
    · rw [List.countP_append]
      have := sumTo_upd (fun v => made (C.pc v)) t (made p') ht
      have h6 : (fun v => made (upd C.pc t p' v)) = upd (fun v => made (C.pc v)) t (made p') := by
        funext v; simp only [upd_apply]; split <;> rfl
      simp only [h6]
      omega

namespace Code
open Text

variable {R : Rep}

/-- **C76 (the program text).** Every statement counts as a step: `62` is the length of the longest path through the text without access, and two. -/
theorem queue_text_delay (hf : R.Faithful) (hn : n + 1 ≤ R.limit) {C : TConf R α}
    (hx : Own (program R α).mach (Program.ok fun _ _ => True) casFails T u
      ⟨(SConf.initial R n).s, fun _ => .idle⟩ h C k f) (ho : ∀ t o, Event.inv t o ∈ h → o.plain = true) :
    k ≤ 62 * (17 * h.countP (callOf u) + 6 * f + 39 * (h.countP changed + T)) := by
  obtain ⟨D, k', h1, -, -, r, -, h2⟩ := refines.own failures (fun _ _ hx t => text_inv hf hn hx t) hx
  have h3 : ∃ E, Own (mach α R.cfg) (okFresh R.cfg) spurious T u (Conf.initial R.cfg n) h E k' f ∧ ConfRel R E D := by
    clear h2 hx ho
    induction h1 with
    | refl => exact ⟨_, .refl, .initial hf hn⟩
    | @step h D t ch w' q' e k f _ ht hs hok ih =>
      obtain ⟨E, hx, hr⟩ := ih
      obtain ⟨s', p', h1, h2, h3⟩ := conf_step hf hr hs hok
      have h4 := Own.step hx ht h1 h2
      rw [spurious_of (hr.pc t)] at h4
      exact ⟨_, h4, h3⟩
  obtain ⟨E, h3, -⟩ := h3
  have := queue_delay h3 ho
  have : 62 * (k' + f) ≤ 62 * (17 * h.countP (callOf u) + 6 * f + 39 * (h.countP changed + T)) := Nat.mul_le_mul_left _ (by omega)
  omega

section
variable {C : Nat → TConf R α} {t : Nat → Nat} {ch : Nat → TChoice (SChoice R.K (Op α) α) (Op α)} {e : Nat → Option (Event (Op α) (Ret α))}

/-- **C76 (calls return).** An execution without end of finitely many threads that call `push`, `pop` and `empty`. If compare-exchanges fail spuriously only
finitely often, and only finitely many calls return that changed the queue, then every call of a thread that goes on making steps returns. -/
theorem queue_text_calls_return (hf : R.Faithful) (hn : n + 1 ≤ R.limit)
    (hx : Forever (program R α).mach (Program.ok fun _ _ => True) T C t ch e)
    (h0 : C 0 = ⟨(SConf.initial R n).s, fun _ => .idle⟩) (ho : ∀ i t o, e i = some (.inv t o) → o.plain = true)
    (hspur : ∃ N, ∀ i, N ≤ i → casFails ((C i).pc (t i)) (ch i) = false)
    (hch : ∃ N, ∀ i, N ≤ i → ∀ ev, e i = some ev → changed ev = false) (hu : ∀ i, ∃ j, i ≤ j ∧ t j = u) (i : Nat) :
    ∃ j, i ≤ j ∧ (C j).pc u = .idle := by
  apply Classical.byContradiction
  intro hno
  have hno : ∀ j, i ≤ j → (C j).pc u ≠ .idle := fun j hj hp => hno ⟨j, hj, hp⟩
  obtain ⟨N, hN⟩ := hspur
  obtain ⟨M, hM⟩ := hch
  have hcall : ∀ j, i ≤ j → ∀ ev, e j = some ev → callOf u ev = false := by
    intro j hj ev he
    obtain ⟨p', h1, -⟩ := hx.step j
    rw [he] at h1
    cases ev with
    | res => rfl
    | inv v o =>
      rcases Program.lawful _ _ _ _ _ _ _ _ h1 with ⟨h2, o', h3⟩ | ⟨r, _, _, h3⟩
      · cases h3
        simp only [callOf, beq_eq_false_iff_ne]
        intro h4
        exact hno j hj (by rw [← h4]; exact h2)
      · cases h3
  obtain ⟨m, hm⟩ := stepsOf_unbounded hu (62 * (17 * i + 6 * N + 39 * (M + T)) + N + 1)
  obtain ⟨k, f, h1, h2, h3, -⟩ := hx.own hN u m
  rw [h0] at h1
  have h4 := queue_text_delay hf hn h1 (fun t o hm => by obtain ⟨j, hj⟩ := mem_firstEvents hm; exact ho j t o hj)
  have h5 := countP_bound hcall m
  have h6 := countP_bound hM m
  omega
end

end Code
end Verif.Queue
