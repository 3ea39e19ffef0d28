import Verif.LockFree
import Verif.CallInv
import Verif.Queue.Pool

/-!
# Queue: progress (C32, C45)

The number of steps is bounded with a potential. A call is charged, when it is made, for the steps it needs when left alone,
and for the steps it makes others repeat when one of its compare-exchanges succeeds. The swing of a lagging `tail_`, which may
be done by any thread, is paid by the push that made it lag.
-/

namespace Verif.Queue
open Lin

variable {α : Type}

/-- The node `tail_` points to. -/
def St.tnode (s : St α) : Nat := s.tail.ptr.getD 0

/-- Is `tail_` lagging? -/
def lg (s : St α) : Nat := if (s.heap.next s.tnode).ptr = none then 0 else 1

/-- Is `tail_` lagging and equal to `head_`? -/
def eg (s : St α) : Nat := if s.head.ptr = s.tail.ptr then lg s else 0

theorem lg_congr {s s' : St α} (h : s'.heap.next s'.tnode = s.heap.next s.tnode) : lg s' = lg s := by unfold lg; rw [h]

theorem lg_le (s : St α) : lg s ≤ 1 := by unfold lg; split <;> omega
theorem eg_le (s : St α) : eg s ≤ 1 := by unfold eg; split <;> have := lg_le s <;> omega
theorem eg_le_lg (s : St α) : eg s ≤ lg s := by unfold eg; split <;> omega

/-- Has a version changed? -/
def dn (a b : Nat) : Nat := if b = a then 0 else 1

theorem dn_self (a : Nat) : dn a a = 0 := if_pos rfl
theorem dn_le (a b : Nat) : dn a b ≤ 1 := by unfold dn; split <;> omega

/-- Number of changes: `pool_`, `head_`, `tail_`, the link of the tail node. -/
def chg (s s' : St α) : Nat :=
  diff s.heap.pool s'.heap.pool + dn s.headVer s'.headVer + dn s.tailVer s'.tailVer +
    dn (s.heap.nver s.tnode) (s'.heap.nver s.tnode)

theorem chg_self (s : St α) : chg s s = 0 := by simp [chg, diff_self, dn_self]

section
variable (W : Nat)

/-- The end of a push, from the successful compare-exchange of the link on. -/
def pushB : Nat := 2 + 2 * W
/-- The end of a pop, from the successful compare-exchange of `head_` on. -/
def popB : Nat := 5 + 2 * W

/-- A round of the loop of `push` and what follows. -/
def pushR (s : St α) : Nat := pushB W + 4 + 4 * lg s
/-- A round of the loop of `pop` and what follows. -/
def popR (s : St α) : Nat := popB W + 6 + 5 * eg s

/-- What remains after `deallocate`. -/
def fCost : FreeK α → Nat
  | .pop _ => 1
  | .rsv k => 2 + k * (4 + W)

/-- A bound for the steps a call needs from `p` on, when left alone, plus `W` for each successful compare-exchange still to
come (two for the link, the second for the swing of `tail_`). -/
def cost (s : St α) : PC α → Nat
  | .idle => 0
  | .alloc _ _ a => aCost W s.heap.pool a + 3 + pushB W + 8
  | .constr _ _ _ => 3 + pushB W + 8
  | .nload _ _ _ => 2 + pushB W + 8
  | .nstore _ _ _ _ => 1 + pushB W + 8
  | .pTail _ => pushR W s
  | .pNext _ T => if T.ver = s.tailVer then pushB W + 3 + 4 * lg s else 2 + pushR W s
  | .pCheck _ T N =>
    if T.ver = s.tailVer then
      if N.v.ptr = none then (if s.heap.nver s.tnode = N.ver then pushB W + 2 else 2 + pushR W s) else pushB W + 6
    else 1 + pushR W s
  | .pCas _ T N => if T.ver = s.tailVer ∧ s.heap.nver s.tnode = N.ver then pushB W + 1 else 1 + pushR W s
  | .swing .donePush _ _ => 2
  | .swing (.retryPush _) T _ => if T.ver = s.tailVer then pushB W + 5 else 1 + pushR W s
  | .swing .retryPop T _ => if T.ver = s.tailVer then popB W + 7 else 1 + popR W s
  | .cHead => popR W s
  | .cTail H => if H.ver = s.headVer then popB W + 5 + 5 * eg s else 3 + popR W s
  | .cNext H T =>
    if H.ver = s.headVer then
      if H.v.ptr = T.v.ptr then (if T.ver = s.tailVer then popB W + 4 + 5 * eg s else 3 + popR W s) else popB W + 4
    else 2 + popR W s
  | .cCheck H T N =>
    if H.ver = s.headVer then
      if H.v.ptr = T.v.ptr then
        if N.v.ptr = none then popB W + 2 else if T.ver = s.tailVer then popB W + 8 else 2 + popR W s
      else if N.v.ptr = none then 1 + popR W s else popB W + 3
    else 1 + popR W s
  | .cData H _ => if H.ver = s.headVer then popB W + 2 else 2 + popR W s
  | .cCas H _ _ => if H.ver = s.headVer then popB W + 1 else 1 + popR W s
  | .cDestroy _ _ => 5 + W
  | .free k _ d => dCost W s.heap.pool d + fCost W k
  | .eHead => 3
  | .eTail _ => 2
  | .eHead2 _ => 2
  | .rsv k => 2 + k * (4 + W)
  | .ret _ => 1
  | .err => 0

/-- What a call is charged. -/
def opCost : Op α → Nat
  | .push _ _ => 17 + 3 * W
  | .pop => 17 + 2 * W
  | .empty => 4
  | .reserve k => 3 + k * (4 + W)

/-- A step pays for itself and for the interference it causes. -/
def Pays (s : St α) (p : PC α) (s' : St α) (p' : PC α) (x : Nat) : Prop :=
  cost W s' p' + 1 + W * chg s s' + W * lg s' ≤ cost W s p + W * lg s + x
end

variable {W : Nat} {cfg : Cfg} {s : St α} {g : G} {σ : List α} {t : Nat} {st : Status (Op α) (Ret α)}

theorem Pays.quiet {p p' : PC α} {x} (h : cost W s p' + 1 ≤ cost W s p + x) : Pays W s p s p' x := by
  simp [Pays, chg_self]; omega

theorem SI.tnode_mem (hi : SI cfg s g σ) : s.tail.ptr = some s.tnode ∧ s.tnode ∈ g.L := by
  obtain ⟨A, x, h1, h2⟩ := hi.tl
  have h3 : s.tnode = x := by simp [St.tnode, h1]
  rw [h3]; exact ⟨h1, by rcases h2 with h2 | ⟨y, h2⟩ <;> simp [h2]⟩

/-- A step that only touches the heap, outside the queue. -/
theorem Pays.heap (hi : SI cfg s g σ) {h' : Heap α} {p p' : PC α} {x}
    (hn : ∀ m, g.own m = .str → h'.next m = s.heap.next m ∧ h'.nver m = s.heap.nver m)
    (hc : cost W { s with heap := h' } p' + 1 + W * diff s.heap.pool h'.pool ≤ cost W s p + x) :
    Pays W s p { s with heap := h' } p' x := by
  have h1 := hn _ ((hi.mem _).2 hi.tnode_mem.2)
  have h2 : lg ({ s with heap := h' } : St α) = lg s := lg_congr h1.1
  unfold Pays
  rw [h2]
  simp only [chg, dn_self, h1.2, Nat.add_zero]
  omega

theorem eg_frame (hi : SI cfg s g σ) {h' : Heap α}
    (hn : ∀ m, g.own m = .str → h'.next m = s.heap.next m ∧ h'.nver m = s.heap.nver m) :
    lg ({ s with heap := h' } : St α) = lg s ∧ eg ({ s with heap := h' } : St α) = eg s := by
  have h1 := hn _ ((hi.mem _).2 hi.tnode_mem.2)
  have h2 : lg ({ s with heap := h' } : St α) = lg s := lg_congr h1.1
  exact ⟨h2, by simp only [eg, h2]⟩

theorem str_not_held (hi : SI cfg s g σ) {m n : Nat} (hm : g.own m = .str) (hn : n ∈ g.held t) : m ≠ n := by
  rintro rfl
  have := (hi.heap.hmem t m).2 hn
  rw [hm] at this; cases this

/-- The last node. -/
theorem lg_zero (hi : SI cfg s g σ) (h : g.L.getLast? = some s.tnode) : lg s = 0 := by
  unfold lg; rw [Chain.last_null hi.chain h]; simp

/-- The node after `head_` exists unless `tail_` is there too. -/
theorem head_next (hi : SI cfg s g σ) {x : Nat} (hx : s.head.ptr = some x) (hne : s.tail.ptr ≠ some x) :
    (s.heap.next x).ptr ≠ none := by
  obtain ⟨L', hL, hc⟩ := hi.chain.head hx
  cases L' with
  | cons y L' => rw [hc.1]; simp
  | nil =>
    have h1 := hi.tnode_mem
    rw [hL] at h1; simp at h1
    exact absurd (h1.1.trans (congrArg some h1.2)) hne

theorem lg_swing (hi : SI cfg s g σ) {y : Nat} {w : Tagged} {k : Nat} (hw : w.ptr = some y)
    (h : (s.heap.next s.tnode).ptr = some y) : lg s = 1 ∧ lg ({ s with tail := w, tailVer := k } : St α) = 0 := by
  refine ⟨by unfold lg; rw [h]; simp, ?_⟩
  obtain ⟨A, x, h1, h2⟩ := hi.tl
  have h3 : s.tnode = x := by simp [St.tnode, h1]
  rw [h3] at h
  have hc := hi.chain
  rcases h2 with h2 | ⟨y', h2⟩
  · have := Chain.last_null hc (x := x) (by simp [h2]); rw [this] at h; cases h
  · rw [h2] at hc
    have h4 := Chain.next_mem hc
    rw [h] at h4; cases h4
    have := Chain.last_null hc (x := y) (by simp)
    simp [lg, St.tnode, hw, this]

theorem eg_zero (h : s.head.ptr ≠ s.tail.ptr) : eg s = 0 := if_neg h
theorem eg_of_lg (h : lg s = 0) : eg s = 0 := by have := eg_le_lg s; omega
theorem eg_eq (h : s.head.ptr = s.tail.ptr) : eg s = lg s := if_pos h

/-- A failure of `compare_exchange_weak` although the word has the expected value. (In `empty()` the choice only selects the
order of evaluation.) -/
def spurious : PC α → QChoice α → Bool
  | .eHead, _ => false
  | _, .base .spur => true
  | _, _ => false

theorem own_cost (hi : SI cfg s g σ) {p : PC α} (hl : Local cfg s g.F g.L (g.held t) st p)
    (hf : fresh cfg s p) {ch s' p' e} (ht : Trans cfg t s p ch s' p' e) (hsp : spurious p ch = false) :
    Pays W s p s' p' (callCosts (opCost W) e.toList) := by
  have hlg := lg_le s
  have heg := eg_le s
  have hel := eg_le_lg s
  have htn := hi.tnode_mem
  have htv : s.tailSnap.ver = s.tailVer := rfl
  have hhv : s.headSnap.ver = s.headVer := rfl
  cases ht with
  | call ho =>
    rename_i o
    apply Pays.quiet
    cases o <;> simp [start] at ho
    case push => subst ho; simp [cost, callCosts, opCost, aCost, pushB]; omega
    case pop => subst ho; simp [cost, callCosts, opCost, popR, popB]; omega
    case empty => subst ho; simp [cost, callCosts, opCost]
    case reserve => obtain ⟨_, rfl⟩ := ho; simp [cost, callCosts, opCost]; omega
  | @allocMore b v a ch h a' ha =>
    obtain ⟨rfl, h1, _⟩ := aStep_more_cost W ha
    apply Pays.quiet
    have := h1 (by rintro rfl; simp [spurious] at hsp)
    simp [cost, callCosts]; omega
  | @allocGot b v a ch h n ha =>
    obtain ⟨_, _, h1, _, h2⟩ := aStep_inv (t := t) hi.heap hl.2.2 hf ha
    refine Pays.heap hi (fun m hm => ?_) ?_
    · have := h2 m (by rintro rfl; rcases h1 with h1 | h1 <;> simp_all)
      exact ⟨this.1, this.2.2⟩
    · have := mul_diff_le W s.heap.pool h.pool
      have := aCost_pos W s.heap.pool a
      simp [cost, callCosts]; omega
  | @allocNull b v a ch h ha =>
    obtain ⟨rfl, _⟩ := aStep_inv (t := t) hi.heap hl.2.2 hf ha
    have := aCost_pos W s.heap.pool a
    apply Pays.quiet
    simp [cost]; omega
  | @allocBad b v a ch h ha =>
    obtain ⟨rfl, _⟩ := aStep_inv (t := t) hi.heap hl.2.2 hf ha
    have := aCost_pos W s.heap.pool a
    apply Pays.quiet
    simp [cost, callCosts]; try omega
  | constrErr _ => apply Pays.quiet; simp [cost, callCosts]
  | constr _ =>
    refine Pays.heap hi (fun m _ => ⟨rfl, rfl⟩) ?_
    simp [cost, callCosts, Heap.setData, diff_self]; omega
  | constrThrow => apply Pays.quiet; simp [cost, callCosts]; try omega
  | nload => apply Pays.quiet; simp [cost, callCosts]; omega
  | @nstore b v n o =>
    have hn : ∀ m, g.own m = .str → upd s.heap.next n ⟨none, cfg.nextTag o.tag⟩ m = s.heap.next m ∧
        upd s.heap.nver n (s.heap.nver n + 1) m = s.heap.nver m := fun m hm => by
      have := str_not_held (t := t) hi hm (n := n) (by rw [hl.1]; simp)
      exact ⟨upd_ne _ _ _ this, upd_ne _ _ _ this⟩
    refine Pays.heap hi hn ?_
    have h1 := eg_frame hi (h' := { s.heap with next := upd s.heap.next n ⟨none, cfg.nextTag o.tag⟩, nver := upd s.heap.nver n (s.heap.nver n + 1) }) hn
    simp [cost, callCosts, diff_self, pushR, h1.1]; omega
  | pTail => apply Pays.quiet; simp [cost, callCosts, pushR, htv]; omega
  | pNextErr h => obtain ⟨_, x, hx⟩ := hl; rw [hx.2.2.1] at h; cases h
  | @pNext n T x hx =>
    obtain ⟨_, x', hT⟩ := hl
    have h0 := hT.2.2.1; rw [hx] at h0; cases h0
    apply Pays.quiet
    simp only [cost, callCosts, Option.toList]
    split
    · rename_i hv
      have h1 := hT.2.2.2.2 hv
      have h2 : s.tnode = x := by simp [St.tnode, h1, hx]
      by_cases h3 : (s.heap.next x).ptr = none
      · simp [St.nextSnap, h2, h3]; try omega
      · have : lg s = 1 := by unfold lg; rw [h2]; simp [h3]
        simp [St.nextSnap, h3]; omega
    · omega
  | @pNextTorn n T x w hx hv =>
    apply Pays.quiet
    simp only [cost, callCosts, Option.toList, if_neg (Ne.symm hv)]; omega
  | @pCheck n T N heq =>
    obtain ⟨_, x, hT, _, hl3⟩ := hl
    have hv : T.ver = s.tailVer := (cfg_M_or hT.1 hf (by rw [← hi.ttag, ← hT.2.1, heq])).symm
    apply Pays.quiet
    cases hN : N.v.ptr with
    | none => simp only [pBranch, hN, cost, callCosts, Option.toList, if_pos hv, if_true, hv, true_and]; split <;> omega
    | some y => simp [pBranch, hN, cost, callCosts, hv]
  | @pCheckFail n T N hne =>
    obtain ⟨_, x, hT, _, hl3⟩ := hl
    have hv : T.ver ≠ s.tailVer := fun hv => hne (hT.2.2.2.2 hv)
    apply Pays.quiet
    simp only [cost, callCosts, Option.toList, if_neg hv]; omega
  | pCasErr h => obtain ⟨_, x, hx, _⟩ := hl; rw [hx.2.2.1] at h; cases h
  | @pCas n T N x hx heq =>
    obtain ⟨_, x', hT, h1, h2, h3⟩ := hl
    have h0 := hT.2.2.1; rw [hx] at h0; cases h0
    have hnv : s.heap.nver x = N.ver := cfg_M_or h1 (hf x hx) (by rw [← hi.ntag x, heq, h2])
    obtain ⟨h4, h5⟩ := h3 hnv
    have h6 : s.tnode = x := by simp [St.tnode, hT.2.2.2.2 h5.symm, hx]
    have hl0 : lg s = 0 := lg_zero hi (by rw [h6]; exact h4)
    have hc : cost W s (.pCas n T N) = pushB W + 1 := by simp only [cost, h6]; rw [if_pos ⟨h5.symm, hnv⟩]
    unfold Pays
    rw [hc, hl0]
    generalize hs' : ({ s with heap := { s.heap with next := _, nver := _ } } : St α) = s'
    have h7 : chg s s' ≤ 1 := by
      subst hs'
      simp only [chg, dn_self, diff_self]
      have := dn_le (s.heap.nver s.tnode) (upd s.heap.nver x (s.heap.nver x + 1) s.tnode)
      omega
    have h8 := lg_le s'
    have h9 := Nat.mul_le_mul_left W h7
    have h10 := Nat.mul_le_mul_left W h8
    simp [cost, callCosts, pushB]; omega
  | @pCasFail n T N ch h =>
    have hch : ∃ x, T.v.ptr = some x ∧ s.heap.next x ≠ N.v := by
      rcases h with h | rfl
      · exact h.2
      · simp [spurious] at hsp
    obtain ⟨x, hx, hne⟩ := hch
    obtain ⟨_, x', hT, h1, h2, h3⟩ := hl
    have h0 := hT.2.2.1; rw [hx] at h0; cases h0
    have hbad : ¬ (T.ver = s.tailVer ∧ s.heap.nver s.tnode = N.ver) := by
      rintro ⟨h4, h5⟩
      have h6 : s.tnode = x := by simp [St.tnode, hT.2.2.2.2 h4, hx]
      rw [h6] at h5
      have h7 := Chain.last_null hi.chain (h3 h5).1
      have h8 := hi.ntag x
      apply hne
      rw [h2, ← h5, ← h8]
      cases hn : s.heap.next x; rw [hn] at h7; simp only at h7; simp [h7]
    apply Pays.quiet
    simp only [cost, callCosts, Option.toList, if_neg hbad]; omega
  | @swing k T y heq =>
    obtain ⟨⟨x, hT, h1⟩, _⟩ := hl
    have hv : T.ver = s.tailVer := (cfg_M_or hT.1 hf (by rw [← hi.ttag, ← hT.2.1, heq])).symm
    have h6 : s.tnode = x := by simp [St.tnode, heq, hT.2.2.1]
    obtain ⟨h2, h3⟩ := lg_swing (y := y) (w := ⟨some y, cfg.nextTag T.v.tag⟩) (k := s.tailVer + 1) hi rfl (by rw [h6]; exact h1 hv)
    have h4 := eg_of_lg h3
    have h5 : chg s { s with tail := ⟨some y, cfg.nextTag T.v.tag⟩, tailVer := s.tailVer + 1 } ≤ 1 := by
      simp only [chg, dn_self, diff_self]
      have := dn_le s.tailVer (s.tailVer + 1)
      omega
    have h7 := Nat.mul_le_mul_left W h5
    unfold Pays
    rw [h2, h3]
    cases k <;> simp [onSwung, cost, callCosts, hv, pushR, popR, h3, h4] <;> omega
  | @swingFail k T y hne =>
    obtain ⟨⟨x, hT, h1⟩, _⟩ := hl
    have hv : T.ver ≠ s.tailVer := fun hv => hne (hT.2.2.2.2 hv)
    apply Pays.quiet
    cases k <;> simp [onSwung, cost, callCosts, hv] <;> omega
  | cHead => apply Pays.quiet; simp [cost, callCosts, popR, hhv]; omega
  | @cTail H =>
    apply Pays.quiet
    simp only [cost, callCosts, Option.toList, htv, if_true]
    unfold popR
    (repeat' split) <;> omega
  | cNextErr h => obtain ⟨_, _, x, z, hx, _⟩ := hl; rw [hx.2.2.1] at h; cases h
  | @cNext H T x hx =>
    obtain ⟨_, _, x', z, hH, hT, hz⟩ := hl
    have h0 := hH.2.2.1; rw [hx] at h0; cases h0
    apply Pays.quiet
    by_cases hv : H.ver = s.headVer
    · have hd : s.head.ptr = some x := by rw [hH.2.2.2.2 hv]; exact hx
      by_cases hp : H.v.ptr = T.v.ptr
      · by_cases hN : (s.nextSnap x).v.ptr = none
        · simp only [cost, callCosts, Option.toList, if_pos hv, if_pos hp, if_pos hN]
          unfold popR; split <;> omega
        · simp only [cost, callCosts, Option.toList, if_pos hv, if_pos hp, if_neg hN]
          split
          · rename_i htv'
            have h1 := hT.2.2.2.2 htv'
            have h2 : s.head.ptr = s.tail.ptr := by rw [h1, ← hp, hx, hd]
            have h3 : s.tnode = x := by simp [St.tnode, ← h2, hd]
            have h4 : lg s = 1 := by unfold lg; rw [h3]; exact if_neg hN
            rw [eg_eq h2]; omega
          · omega
      · have h1 : z ≠ x := by rintro rfl; exact hp (by rw [hx, hT.2.2.1])
        have h2 : (s.nextSnap x).v.ptr ≠ none := head_next hi hd (hz hv h1)
        simp only [cost, callCosts, Option.toList, if_pos hv, if_neg hp, if_neg h2]; omega
    · simp only [cost, callCosts, Option.toList, if_neg hv]; omega
  | @cNextTorn H T x w hx h =>
    apply Pays.quiet
    have hv : ¬ H.ver = s.headVer := fun hv => h (.inl hv.symm)
    simp only [cost, callCosts, Option.toList, if_neg hv]; omega
  | @cCheck H T N heq =>
    obtain ⟨_, P, _, x, z, hH, hT, _⟩ := hl
    have hv : H.ver = s.headVer := (cfg_M_or hH.1 hf (by rw [← hi.htag, ← hH.2.1, heq])).symm
    apply Pays.quiet
    unfold cBranch
    by_cases hp : H.v.ptr = T.v.ptr
    · cases hN : N.v.ptr with
      | none => simp [cost, callCosts, hv, hp, hN]; try omega
      | some y => simp [cost, callCosts, hv, hp, hN]; split <;> omega
    · cases hN : N.v.ptr with
      | none => simp [cost, callCosts, hv, hp, hN]; omega
      | some y => simp [cost, callCosts, hv, hp, hN]
  | @cCheckFail H T N hne =>
    obtain ⟨_, P, _, x, z, hH, hT, _⟩ := hl
    have hv : ¬ H.ver = s.headVer := fun hv => hne (hH.2.2.2.2 hv)
    apply Pays.quiet
    simp only [cost, callCosts, Option.toList, if_neg hv]; omega
  | cData _ => apply Pays.quiet; simp only [cost, callCosts, Option.toList]; split <;> omega
  | cDataErr _ h => apply Pays.quiet; simp only [cost, callCosts, Option.toList]; split <;> omega
  | cDataGarbage _ => apply Pays.quiet; simp only [cost, callCosts, Option.toList]; split <;> omega
  | cDataThrow => apply Pays.quiet; simp only [cost, callCosts, Option.toList]; split <;> omega
  | @cCas H y v x heq hx =>
    obtain ⟨_, _, x', hH, _⟩ := hl
    have hv : H.ver = s.headVer := (cfg_M_or hH.1 hf (by rw [← hi.htag, ← hH.2.1, heq])).symm
    have h2 : lg ({ s with head := ⟨some y, cfg.nextTag H.v.tag⟩, headVer := s.headVer + 1 } : St α) = lg s := rfl
    have h5 : chg s { s with head := ⟨some y, cfg.nextTag H.v.tag⟩, headVer := s.headVer + 1 } ≤ 1 := by
      simp only [chg, dn_self, diff_self]
      have := dn_le s.headVer (s.headVer + 1)
      omega
    have h7 := Nat.mul_le_mul_left W h5
    unfold Pays
    rw [h2]
    simp [cost, callCosts, hv, popB]; omega
  | @cCasFail H y v ch h =>
    have hne : s.head ≠ H.v := by
      rcases h with h | rfl
      · exact h.2
      · simp [spurious] at hsp
    obtain ⟨_, _, x', hH, _⟩ := hl
    have hv : ¬ H.ver = s.headVer := fun hv => hne (hH.2.2.2.2 hv)
    apply Pays.quiet
    simp only [cost, callCosts, Option.toList, if_neg hv]; omega
  | cDestroy =>
    refine Pays.heap hi (fun m _ => ⟨rfl, rfl⟩) ?_
    simp [cost, callCosts, fCost, Heap.setData, diff_self, dCost]; omega
  | @freeMore k n d ch h d' hd =>
    obtain ⟨h1, h2, hdl, _⟩ := hl
    obtain ⟨_, _, h3, _, h3'⟩ := dStep_inv (t := t) hi.heap (by rw [h1]; simp) h2 hdl hd
    obtain ⟨_, h4, _⟩ := dStep_cost W hd
    obtain ⟨h5, h6, _⟩ := h4 d' rfl
    have := h6 (by rintro rfl; simp [spurious] at hsp)
    refine Pays.heap hi (fun m hm => ⟨h3 m (str_not_held (t := t) hi hm (by rw [h1]; simp)), by rw [h3']⟩) ?_
    simp [cost, callCosts, h5, diff_self]; omega
  | @freeDone k n d ch h hd =>
    obtain ⟨h1, h2, hdl, _⟩ := hl
    obtain ⟨_, _, h3, _, h3'⟩ := dStep_inv (t := t) hi.heap (by rw [h1]; simp) h2 hdl hd
    obtain ⟨_, _, h4⟩ := dStep_cost W hd
    obtain ⟨_, h5⟩ := h4 rfl
    refine Pays.heap hi (fun m hm => ⟨by rw [h3], by rw [h3']⟩) ?_
    have h6 := mul_diff_le W s.heap.pool h.pool
    cases k <;> simp [cost, callCosts, onFreed, fCost] <;> omega
  | eHead => apply Pays.quiet; simp [cost, callCosts]
  | eHead' => apply Pays.quiet; simp [cost, callCosts]
  | eHead2 => apply Pays.quiet; simp [cost, callCosts]
  | eTail => apply Pays.quiet; simp [cost, callCosts]
  | rsvDone => apply Pays.quiet; simp [cost, callCosts]
  | rsv =>
    have hm : ∀ m, g.own m = .str → s.heap.malloc.next m = s.heap.next m ∧ s.heap.malloc.nver m = s.heap.nver m := fun m hm => by
      have h1 : m ≠ s.heap.nalloc := by
        rintro rfl
        have := (hi.heap.raw s.heap.nalloc).2 (Nat.le_refl _)
        rw [hm] at this; cases this
      exact ⟨upd_ne _ _ _ h1, upd_ne _ _ _ h1⟩
    refine Pays.heap hi hm ?_
    simp [cost, callCosts, fCost, Heap.malloc, diff_self, dCost, Nat.add_mul]; omega
  | rsvThrow => apply Pays.quiet; simp [cost, callCosts]; try omega
  | ret => apply Pays.quiet; simp [cost, callCosts]

/-- A spurious failure costs at most another round. -/
theorem spur_cost (hi : SI cfg s g σ) {p : PC α} (hl : Local cfg s g.F g.L (g.held t) st p)
    {ch s' p' e} (ht : Trans cfg t s p ch s' p' e) (hsp : spurious p ch = true) :
    s' = s ∧ e = none ∧ cost W s p' ≤ cost W s p + 5 := by
  cases ht with
  | @allocMore b v a ch h a' ha =>
    obtain ⟨rfl, _, h2⟩ := aStep_more_cost W ha
    exact ⟨rfl, rfl, by simp only [cost]; omega⟩
  | @allocGot b v a ch h n ha =>
    cases ch <;> simp [spurious] at hsp
    exact absurd (aStep_spur ha) (by simp)
  | @allocNull b v a ch h ha =>
    cases ch <;> simp [spurious] at hsp
    exact absurd (aStep_spur ha) (by simp)
  | @allocBad b v a ch h ha =>
    cases ch <;> simp [spurious] at hsp
    exact absurd (aStep_spur ha) (by simp)
  | @freeMore k n d ch h d' hd =>
    cases ch <;> simp [spurious] at hsp
    obtain ⟨_, h1, _⟩ := dStep_cost W hd
    have h2 := (h1 d' rfl).2.2
    cases d <;> simp [dStep] at hd
    obtain ⟨rfl, rfl⟩ := hd
    exact ⟨rfl, rfl, by simp only [cost]; omega⟩
  | @freeDone k n d ch h hd =>
    cases ch <;> simp [spurious] at hsp
    exact absurd rfl ((dStep_cost W hd).2.2 rfl).1
  | pNextErr h => obtain ⟨_, x, hx⟩ := hl; rw [hx.2.2.1] at h; cases h
  | cNextErr h => obtain ⟨_, _, x, z, hx, _⟩ := hl; rw [hx.2.2.1] at h; cases h
  | @pCasFail n T N ch h =>
    refine ⟨rfl, rfl, ?_⟩
    obtain ⟨_, x, hT, h1, h2, h3⟩ := hl
    simp only [cost]
    split
    · rename_i hv
      have h6 : s.tnode = x := by simp [St.tnode, hT.2.2.2.2 hv.1, hT.2.2.1]
      rw [h6] at hv
      have := lg_zero hi (by rw [h6]; exact (h3 hv.2).1)
      simp only [pushR, this]; omega
    · omega
  | @cCasFail H y v ch h =>
    refine ⟨rfl, rfl, ?_⟩
    obtain ⟨_, _, x, hH, h1⟩ := hl
    simp only [cost]
    split
    · rename_i hv
      have := eg_zero (s := s) (by rw [hH.2.2.2.2 hv, hH.2.2.1]; exact (h1 hv).1.symm)
      simp only [popR, this]; omega
    · omega
  | _ => simp [spurious] at hsp

/-- What the steps of others can add. -/
theorem cost_jump (s s' : St α) (p : PC α) : cost W s' p ≤ cost W s p + 13 := by
  have h1 := lg_le s'
  have h2 := eg_le s'
  have h3 := aCost_le W s'.heap.pool
  have h4 := aCost_pos W s.heap.pool
  have h5 := dCost_le W s'.heap.pool
  have h6 := dCost_pos W s.heap.pool
  cases p with
  | alloc b v a => have := h3 a; have := h4 a; simp only [cost]; omega
  | free k n d => have := h5 d; have := h6 d; simp only [cost]; omega
  | swing k T y => cases k <;> simp only [cost, pushR, popR] <;> (repeat' split) <;> omega
  | _ => simp only [cost, pushR, popR] <;> (repeat' split) <;> omega

theorem others_cost {l F L s' F' L'} (hr : Rely l s F L s' F' L') (hi : SI cfg s g σ) (p : PC α) :
    cost W s' p ≤ cost W s p + 13 * chg s s' := by
  by_cases h : chg s s' = 0
  · have h1 : s'.heap.pool = s.heap.pool ∧ s'.headVer = s.headVer ∧ s'.tailVer = s.tailVer ∧
        s'.heap.nver s.tnode = s.heap.nver s.tnode := by
      unfold chg dn diff at h
      by_cases a1 : s'.heap.pool = s.heap.pool <;> by_cases a2 : s'.headVer = s.headVer <;>
        by_cases a3 : s'.tailVer = s.tailVer <;> by_cases a4 : s'.heap.nver s.tnode = s.heap.nver s.tnode <;>
        simp [a1, a2, a3, a4] at h ⊢
    obtain ⟨a1, a2, a3, a4⟩ := h1
    have b1 := hr.hd a2
    have b2 := hr.tl a3
    have b3 : s'.tnode = s.tnode := by simp [St.tnode, b2]
    have b4 : lg s' = lg s := by
      rcases hr.tnx a3 _ hi.tnode_mem.1 with h1 | h1
      · simp only [lg, b3, h1.1]
      · omega
    have b5 : eg s' = eg s := by simp only [eg, b1, b2, b4]
    have : cost W s' p = cost W s p := by
      cases p with
      | swing k T y => cases k <;> simp only [cost, pushR, popR, a1, a2, a3, a4, b3, b4, b5]
      | _ => simp only [cost, pushR, popR, a1, a2, a3, a4, b3, b4, b5]
    omega
  · have := cost_jump (W := W) s s' p
    omega

/-! ### Lock-freedom -/

/-- What a call is charged when `T` threads use the queue. -/
def charge (T : Nat) : Op α → Nat := opCost (13 * T)

/-- The potential. -/
def potential (T : Nat) (C : Conf α) : Nat :=
  sumTo (fun u => cost (13 * T) C.s (C.pc u)) T + 13 * T * lg C.s

variable {n : Nat} {h : History (Op α) (Ret α)} {C : Conf α} {T k f : Nat}

theorem potential_step (hx : FreshExec cfg n h C) (ht : t < T) {ch s' p' e}
    (hs : tstep cfg t C.s (C.pc t) ch = some (s', p', e)) (hok : okFresh cfg C.s (C.pc t) ch) :
    (spurious (C.pc t) ch = false →
      potential T ⟨s', upd C.pc t p'⟩ + 1 ≤ potential T C + callCosts (charge T) e.toList) ∧
      (spurious (C.pc t) ch = true →
        potential T ⟨s', upd C.pc t p'⟩ ≤ potential T C + callCosts (charge T) e.toList + 5) := by
  obtain ⟨g, c, hi, _⟩ := hx.inv
  obtain ⟨g', c', hi', _, hg, _⟩ := hi.step hs hok
  have htr := trans_of_tstep hs
  have hoth : ∀ u, u ≠ t → cost (13 * T) s' (upd C.pc t p' u) ≤ cost (13 * T) C.s (C.pc u) + 13 * chg C.s s' := by
    intro u hu
    rw [upd_ne _ _ _ hu]
    exact others_cost (hg.rely hi.si hi'.si hu) hi.si _
  refine ⟨fun hsp => ?_, fun hsp => ?_⟩
  · have h1 := own_cost (W := 13 * T) hi.si (hi.loc t) hok htr hsp
    have h2 : 13 * chg C.s s' * T = 13 * T * chg C.s s' := by
      rw [Nat.mul_assoc, Nat.mul_comm (chg _ _), ← Nat.mul_assoc]
    have h4 := sumTo_pay (f := fun u => cost (13 * T) C.s (C.pc u))
      (f' := fun u => cost (13 * T) s' (upd C.pc t p' u)) (t := t)
      (a := 1 + 13 * T * chg C.s s' + 13 * T * lg s') (x := 13 * T * lg C.s + callCosts (charge T) e.toList)
      (by unfold Pays at h1; simp only [upd_self]; unfold charge; omega) hoth ht
    unfold potential
    simp only
    omega
  · obtain ⟨rfl, rfl, h1⟩ := spur_cost (W := 13 * T) hi.si (hi.loc t) htr hsp
    have h4 := sumTo_pay (f := fun u => cost (13 * T) C.s (C.pc u))
      (f' := fun u => cost (13 * T) C.s (upd C.pc t p' u)) (t := t) (a := 0) (x := 5) (c := 0)
      (by simpa using h1) (fun u hu => by simp [upd_ne _ _ _ hu]) ht
    unfold potential
    simp only
    omega

theorem not_idle_of_trans {p p' : PC α} {ch s' e} (ht : Trans cfg t s p ch s' p' e) (he : ∀ r, e ≠ some (.res t r))
    (hpp : p ≠ p') : p' ≠ .idle := by
  cases ht with
  | call ho => exact Ne.symm hpp
  | @pCheck n T N => unfold pBranch; split <;> simp
  | @cCheck H T N => unfold cBranch; (repeat' split) <;> simp
  | @swing k => cases k <;> simp [onSwung]
  | @swingFail k => cases k <;> simp [onSwung]
  | @freeDone k => cases k <;> simp [onFreed]
  | ret => exact absurd rfl (he _)
  | _ => simp

/-- **C45 (lock-freedom).** Whatever `T` threads do, the number of steps that are not spurious failures is at most the sum of
the charges of the calls made, plus five for each spurious failure. A charge depends on the call and on `T` only. So steps
cannot go on without calls completing -- whoever is stopped, wherever. -/
theorem queue_lock_free (hx : Counted (mach α cfg) (okFresh cfg) spurious T (Conf.initial cfg n) h C k f) :
    k ≤ callCosts (charge T) h + 5 * f := by
  have h1 := hx.bound (potential T) (charge T) 5
    (fun h C t ch s' p' e hx ht hs hok hsp => (potential_step hx ht hs hok).1 hsp)
    (fun h C t ch s' p' e hx ht hs hok hsp => (potential_step hx ht hs hok).2 hsp)
  have h2 : potential T (Conf.initial cfg n : Conf α) = 0 := by
    have h3 := sumTo_le (f := fun u => cost (13 * T) (Conf.initial cfg n : Conf α).s
      ((Conf.initial cfg n : Conf α).pc u)) (c := 0) (fun u => by simp [Conf.initial, cost]) T
    have h4 : lg (Conf.initial cfg n : Conf α).s = 0 := by
      obtain ⟨_, e2, _, _, e5⟩ := ofHeap_initial (α := α) cfg n
      unfold lg St.tnode Conf.initial
      simp only [e2, e5]
      simp
    unfold potential
    rw [h4]; simp at h3 ⊢; exact h3
  omega

/-- **C45 (lock-freedom, completions).** If no call is charged more than `B` -- for push, pop and empty `B = 17 + 39 T` -- then
after `k` steps at least `k / B - T` calls have completed. -/
theorem queue_completions (hx : Counted (mach α cfg) (okFresh cfg) spurious T (Conf.initial cfg n) h C k f) {B : Nat}
    (hB : ∀ t o, Event.inv t o ∈ h → charge T o ≤ B) : k ≤ B * (returns h + T) + 5 * f := by
  have h1 := queue_lock_free hx
  have h2 := callCosts_le hB
  have h3 := hx.calls_le (lawful cfg) (fun t s p ch s' p' e hs he hpp => ?_) (fun t s p ch s' p' o hs => ?_)
  · have := Nat.mul_le_mul_left B h3
    omega
  · exact not_idle_of_trans (trans_of_tstep hs) he hpp
  · have ht := trans_of_tstep hs
    cases ht with
    | call ho => exact (start_ne ho).1

theorem charge_single (T : Nat) : ∀ o : Op α, (∀ k, o ≠ .reserve k) → charge T o ≤ 17 + 39 * T
  | .push _ _, _ => by simp only [charge, opCost]; omega
  | .pop, _ => by simp only [charge, opCost]; omega
  | .empty, _ => by simp only [charge, opCost]; omega
  | .reserve k, h => absurd rfl (h k)

end Verif.Queue
