import Verif.LockFree
import Verif.CallInv
import Verif.Stack.Pool

/-!
# Stack: progress (C22)

The number of steps is bounded with a potential. A call is charged, when it is made, for the steps it needs when left alone,
and for the steps it makes others repeat when one of its compare-exchanges succeeds.
-/

namespace Verif.Stack
open Lin

variable {α : Type}

/-- Number of elements a successful `link_nodes_atomic` adds, from the result it leads to. -/
def Ret.size : Ret α → Nat
  | .pushed _ => 1
  | .count k => k
  | _ => 0

section
variable (W K : Nat)

/-- What remains of a push from the construction of the current node on. -/
def kCost : PushK α → Nat
  | .one _ => 5 + W + K
  | .range acc _ _ rest => 6 + W + K * (acc.length + 1) + rest.length * (5 + W + K)

/-- What remains after `deallocate`. -/
noncomputable def fCost (s : St α) : FreeK α → Nat
  | .pop _ => 1
  | .cons _ _ nx => (W + 6) * chainLen s.heap.next nx + 1
  | .rsv k => 2 + k * (4 + W)
  | .undo nx => (W + 5) * chainLen s.heap.next nx + 1

/-- A bound for the steps a call needs from `p` on, when left alone, plus `W` for each successful compare-exchange still to
come, plus `K` for each node it pushes. -/
noncomputable def cost (s : St α) : PC α → Nat
  | .idle => 0
  | .alloc _ k a => aCost W s.heap.pool a + kCost W K k
  | .constr _ k _ => kCost W K k
  | .rlink _ acc _ _ rest _ => 5 + W + K * (acc.length + 1) + rest.length * (5 + W + K)
  | .lload _ _ r => 4 + W + K * r.size
  | .lset _ _ o r => 3 + W + K * r.size + stale s.tos o
  | .lcas _ _ o r => 2 + W + K * r.size + stale s.tos o
  | .pload _ => 9 + 2 * W
  | .ptest _ o => 8 + 2 * W + stale s.tos o
  | .pcas _ o _ => 7 + 2 * W + stale s.tos o
  | .papply _ _ => 6 + W
  | .pdestroy _ _ => 5 + W
  | .free k _ d => dCost W s.heap.pool d + fCost W s k
  | .cload _ _ => 4 + W
  | .ctest _ _ o => 3 + W + stale s.tos o
  | .ccas _ _ o => 2 + W + stale s.tos o
  | .crev _ n last => (W + 8) * chainLen s.heap.next (some n) + (W + 6) * chainLen s.heap.next last + 1
  | .crevSet _ _ last nx => (W + 8) * chainLen s.heap.next nx + (W + 6) * (chainLen s.heap.next last + 1) + 2
  | .capply _ n _ => (W + 6) * chainLen s.heap.next (some n) + 1
  | .cread _ n _ => (W + 6) * chainLen s.heap.next (s.heap.next n).ptr + W + 6
  | .cdestroy _ _ _ nx => (W + 6) * chainLen s.heap.next nx + W + 5
  | .eload => 2
  | .rsv k => 2 + k * (4 + W)
  | .undo n => (W + 5) * chainLen s.heap.next (some n) + 1
  | .undoD _ nx => (W + 5) * chainLen s.heap.next nx + W + 5
  | .ret _ => 1
  | .err => 0

/-- What a call is charged. -/
def opCost : Op α → Nat
  | .push _ _ => 9 + 2 * W + K
  | .pushRange _ vs => 5 + W + vs.length * (5 + W + K)
  | .pop _ => 10 + 2 * W
  | .consumeAll _ _ => 5 + W
  | .empty => 3
  | .reserve k => 3 + k * (4 + W)

/-- Number of elements in the stack. -/
noncomputable def St.len (s : St α) : Nat := chainLen s.heap.next s.tos.ptr

/-- Number of shared words that differ (`tos` and `pool_`). -/
def chg (s s' : St α) : Nat := diff s.tos s'.tos + diff s.heap.pool s'.heap.pool

theorem chg_self (s : St α) : chg s s = 0 := by simp [chg, diff_self]

/-- A step pays for itself, for the interference it causes and for the nodes it pushes. -/
def Pays (s : St α) (p : PC α) (s' : St α) (p' : PC α) (x : Nat) : Prop :=
  cost W K s' p' + 1 + W * chg s s' + K * (s'.len - s.len) ≤ cost W K s p + x
end

variable {W K : Nat} {cfg : Cfg} {s : St α} {g : G} {σ : List α} {t : Nat} {st : Status (Op α) (Ret α)}

theorem Pays.quiet {p p' : PC α} {x} (h : cost W K s p' + 1 ≤ cost W K s p + x) : Pays W K s p s p' x := by
  simp [Pays, chg_self]; omega

theorem len_frame (hi : SI cfg s g σ) {h' : Heap α} (hn : ∀ m, m ∉ g.held t → g.own m ≠ .raw → g.own m ≠ .free →
    h'.next m = s.heap.next m) : St.len { s with heap := h' } = s.len :=
  hi.chain.len_congr fun m hm => by
    have h1 := (hi.mem m).2 hm
    have h2 : m ∉ g.held t := fun h => by have := (hi.heap.hmem t m).2 h; grind
    rw [hn m h2 (by grind) (by grind)]

/-- A step that only touches the heap, outside the stack and `pool_`. -/
theorem Pays.heap (hi : SI cfg s g σ) {h' : Heap α} {p p' : PC α} {x}
    (hn : ∀ m, m ∉ g.held t → g.own m ≠ .raw → g.own m ≠ .free → h'.next m = s.heap.next m)
    (hc : cost W K { s with heap := h' } p' + 1 + W * diff s.heap.pool h'.pool ≤ cost W K s p + x) :
    Pays W K s p { s with heap := h' } p' x := by
  unfold Pays
  rw [len_frame hi hn]
  simp only [chg, diff_self, Nat.sub_self, Nat.mul_zero, Nat.zero_add]
  omega

theorem size_of_link {fixed : Bool} {o : Op α} {r : Ret α} {vs : List α} (h : ∀ σ, specStep fixed σ o r (vs ++ σ)) :
    vs.length ≤ r.size := by
  have h := h []
  simp only [List.append_nil] at h
  cases o <;> cases r <;> simp only [specStep] at h <;> try exact h.elim
  case push.pushed => rcases h with ⟨_, rfl⟩ | ⟨_, _, rfl⟩ <;> simp [Ret.size]
  case pushRange.count => obtain ⟨_, _, rfl⟩ := h; simp [Ret.size]; omega
  case pop.popped _ x _ =>
    cases x
    · simp only [specStep] at h; simp [h.2]
    · simp [specStep] at h
  all_goals simp_all

theorem Seg.append {next : Nat → Tagged} {p q l l'} (h : Seg next p l q) (h' : Chain next q l') : Chain next p (l ++ l') := by
  induction l generalizing p with
  | nil => cases h; exact h'
  | cons a l ih => exact ⟨h.1, ih h.2⟩

theorem prep_len {h : Heap α} {top e acc l} (hp : Prep h (some (top, e)) acc l) :
    chainLen h.next (some top) = acc.length := by
  rw [hp.1.len]
  simpa using congrArg List.length hp.2.2

/-- Every step of a thread that is not a spurious failure pays; the compare-exchange of `consume_all` moreover is given the
price of the nodes that leave the stack. -/
theorem own_cost (hK : W + 8 ≤ K) (hi : SI cfg s g σ) {p : PC α} (hl : Local cfg s g.F g.S (g.held t) st p)
    (hf : fresh cfg s p) {ch s' p' e} (ht : Trans cfg t s p ch s' p' e) (hsp : ch ≠ .spur) :
    Pays W K s p s' p' (callCosts (opCost W K) e.toList) ∨
      (∃ rev thr o, p = .ccas rev thr o) ∧ s'.len = 0 ∧ cost W K s' p' + 1 + W * chg s s' ≤ cost W K s p + K * s.len := by
  have hsnap : stale s.tos s.tosSnap = 0 := if_pos rfl
  cases ht with
  | call ho =>
    rename_i o
    left; apply Pays.quiet
    cases o <;> simp [start] at ho
    case push => subst ho; simp [cost, callCosts, opCost, aCost, kCost]; omega
    case pushRange b vs =>
      obtain ⟨_, ho⟩ := ho
      cases vs <;> simp at ho <;> subst ho
      · simp [cost, callCosts, opCost]; omega
      · simp [cost, callCosts, opCost, aCost, kCost, Nat.add_mul]; omega
    case pop => subst ho; simp [cost, callCosts, opCost]; omega
    case consumeAll => subst ho; simp [cost, callCosts, opCost]; omega
    case empty => subst ho; simp [cost, callCosts, opCost]
    case reserve => obtain ⟨_, rfl⟩ := ho; simp [cost, callCosts, opCost]; omega
  | allocMore h =>
    obtain ⟨rfl, h1, _⟩ := aStep_more_cost W h
    left; apply Pays.quiet
    have := h1 hsp
    simp [cost, callCosts]; omega
  | @allocGot b k a ch h n ha =>
    have hA : ALocal cfg s.heap g.F a := by
      cases k with
      | one => exact hl.2.2
      | range => exact hl.2.2.1
    obtain ⟨_, _, h1, _, h2⟩ := aStep_inv (t := t) hi.heap hA hf ha
    left; refine Pays.heap (t := t) hi (fun m _ hm1 hm2 => (h2 m ?_).1) ?_
    · rintro rfl; rcases h1 with h1 | h1 <;> simp_all
    · have := mul_diff_le W s.heap.pool h.pool
      have := aCost_pos W s.heap.pool a
      simp [cost, callCosts]; omega
  | @allocNull b k a ch h ha =>
    have hA : ALocal cfg s.heap g.F a := by
      cases k with
      | one => exact hl.2.2
      | range => exact hl.2.2.1
    obtain ⟨rfl, _⟩ := aStep_inv (t := t) hi.heap hA hf ha
    have := aCost_pos W s.heap.pool a
    left; apply Pays.quiet
    cases k with
    | one => simp [onNull, cost, callCosts, kCost]; omega
    | range acc te v rest =>
      cases te with
      | none => simp [onNull, cost, callCosts, kCost]; omega
      | some te => simp [onNull, cost, callCosts, kCost, Ret.size, Nat.mul_add]; omega
  | @allocBad b k a ch h ha =>
    have hA : ALocal cfg s.heap g.F a := by
      cases k with
      | one => exact hl.2.2
      | range => exact hl.2.2.1
    obtain ⟨rfl, _⟩ := aStep_inv (t := t) hi.heap hA hf ha
    have := aCost_pos W s.heap.pool a
    left; apply Pays.quiet
    cases k with
    | one => simp [onThrow, cost, callCosts, kCost]; omega
    | range acc te v rest =>
      cases te with
      | none => simp [onThrow, cost, callCosts, kCost]; omega
      | some te =>
        have h1 := prep_len hl.1
        have h2 := Nat.mul_le_mul_right acc.length (show W + 5 ≤ K by omega)
        simp [onThrow, cost, callCosts, kCost, Nat.mul_add, h1]; omega
  | @constrErr b k n _ =>
    left; apply Pays.quiet
    cases k <;> simp [cost, callCosts, kCost] <;> omega
  | constrOne _ =>
    left; refine Pays.heap (t := t) hi (fun m _ _ _ => rfl) ?_
    simp [cost, callCosts, kCost, Heap.setData, diff_self, Ret.size]; omega
  | constrRange _ =>
    left; refine Pays.heap (t := t) hi (fun m _ _ _ => rfl) ?_
    simp [cost, callCosts, kCost, Heap.setData, diff_self]; omega
  | @constrThrow b k n =>
    left; apply Pays.quiet
    cases k with
    | one => simp [onThrow, cost, callCosts, kCost]; omega
    | range acc te v rest =>
      cases te with
      | none => simp [onThrow, cost, callCosts, kCost]; omega
      | some te =>
        obtain ⟨l', h1, h2, _⟩ := hl
        have h1 := prep_len h2
        have h2 := Nat.mul_le_mul_right acc.length (show W + 5 ≤ K by omega)
        simp [onThrow, cost, callCosts, kCost, Nat.mul_add, h1]; omega
  | @rlinkFirst b acc v rest n =>
    obtain ⟨l', h1, _⟩ := hl
    left; refine Pays.heap (t := t) hi (fun m hm _ _ => ?_) ?_
    · simp [Heap.setNextPtr, upd_ne _ _ _ (show m ≠ n by rintro rfl; simp [h1] at hm)]
    · cases rest <;>
        simp [cost, callCosts, kCost, onLinked, Heap.setNextPtr, diff_self, Ret.size, Nat.mul_add, Nat.add_mul, aCost] <;> omega
  | @rlinkNext b acc top e v rest n =>
    obtain ⟨l', h1, _⟩ := hl
    left; refine Pays.heap (t := t) hi (fun m hm _ _ => ?_) ?_
    · simp [Heap.setNextPtr, upd_ne _ _ _ (show m ≠ n by rintro rfl; simp [h1] at hm)]
    · cases rest <;>
        simp [cost, callCosts, kCost, onLinked, Heap.setNextPtr, diff_self, Ret.size, Nat.mul_add, Nat.add_mul, aCost] <;> omega
  | lload =>
    left; apply Pays.quiet
    simp [cost, callCosts, hsnap]; omega
  | @lset top e o r =>
    obtain ⟨_, _, _, _, h1, _⟩ := hl
    left; refine Pays.heap (t := t) hi (fun m hm _ _ => ?_) ?_
    · simp [Heap.setNextPtr, upd_ne _ _ _ (show m ≠ e by rintro rfl; exact hm (List.mem_of_getLast? h1))]
    · simp [cost, callCosts, Heap.setNextPtr, diff_self]; omega
  | @lcasOk top e o r heq =>
    obtain ⟨o', vs, h1, _, h3, _, h4⟩ := hl
    have h5 := size_of_link h4
    have h6 : vs.length = (g.held t).length := by simpa using (congrArg List.length h3).symm
    left
    have h7 : St.len { s with tos := ⟨some top, o.v.tag⟩ } = (g.held t).length + s.len := by
      unfold St.len
      rw [hi.chain.len, (Seg.append h1 (heq ▸ hi.chain)).len]; simp
    have h8 := mul_diff_le W s.tos ⟨some top, o.v.tag⟩
    have h9 := Nat.mul_le_mul_left K (show (g.held t).length ≤ r.size by omega)
    unfold Pays
    rw [h7]
    simp [cost, callCosts, chg, diff_self, stale_eq heq]; omega
  | lcasFail h =>
    left; apply Pays.quiet
    simp [hsp] at h
    simp [cost, callCosts, hsnap, stale_ne h.2]; omega
  | pload =>
    left; apply Pays.quiet
    simp [cost, callCosts, hsnap]; omega
  | ptestNull _ => left; apply Pays.quiet; simp [cost, callCosts]; omega
  | ptestSome _ => left; apply Pays.quiet; simp [cost, callCosts]; omega
  | ptestRacy _ _ => left; apply Pays.quiet; simp [cost, callCosts]; omega
  | @pcasOk thr o nx n heq hn =>
    obtain ⟨hl1, hl2, hl3, n', hn', hnx⟩ := hl
    rw [hn] at hn'; cases hn'
    have hver : s.tosVer = o.ver := ver_eq_of_fresh hl3.1 hf (by rw [← hi.tag, ← hl3.2.1, heq])
    left
    obtain ⟨S', hS, hc⟩ := hi.chain.head (n := n) (by rw [heq, hn])
    have h1 : St.len { s with tos := ⟨nx, cfg.nextTag o.v.tag⟩, tosVer := s.tosVer + 1 } ≤ s.len := by
      unfold St.len
      rw [hi.chain.len, hS, ← hnx hver.symm]
      simp only
      rw [hc.len]; simp
    have h2 := mul_diff_le W s.tos ⟨nx, cfg.nextTag o.v.tag⟩
    unfold Pays
    rw [show _ - s.len = 0 from Nat.sub_eq_zero_of_le h1]
    simp [cost, callCosts, chg, diff_self, stale_eq heq]; omega
  | pcasFail h =>
    left; apply Pays.quiet
    simp [hsp] at h
    simp [cost, callCosts, hsnap, stale_ne h.2]; omega
  | papplyErr _ => left; apply Pays.quiet; simp [cost, callCosts]; omega
  | papplyThrow _ => left; apply Pays.quiet; simp [cost, callCosts]; omega
  | papply _ => left; apply Pays.quiet; simp [cost, callCosts]; omega
  | pdestroyErr _ => left; apply Pays.quiet; simp [cost, callCosts]; omega
  | pdestroy _ =>
    left; refine Pays.heap (t := t) hi (fun m _ _ _ => rfl) ?_
    simp [cost, callCosts, fCost, Heap.setData, diff_self, dCost]; omega
  | @freeMore k n d ch h d' hd =>
    obtain ⟨l', h1, _, _, h2⟩ := hl
    obtain ⟨h3, h4, _⟩ := dStep_cost W hd
    obtain ⟨h5, h6, _⟩ := h4 d' rfl
    have := h6 hsp
    left; refine Pays.heap (t := t) hi (fun m hm _ _ => h3 m (by rintro rfl; simp [h1] at hm)) ?_
    have hnd := hi.heap.hnodup t
    rw [h1] at hnd
    have h7 : fCost W { s with heap := h } k = fCost W s k := by
      cases k with
      | cons thr acc nx =>
        simp only [fCost]
        rw [h2.1.len_congr fun m hm => by rw [h3 m (by rintro rfl; simp [hm] at hnd)]]
      | undo nx =>
        simp only [fCost]
        rw [h2.1.len_congr fun m hm => by rw [h3 m (by rintro rfl; simp [hm] at hnd)]]
      | _ => rfl
    simp [cost, callCosts, h5, diff_self, h7]; omega
  | @freeDone k n d ch h hd =>
    obtain ⟨l', h1, _, _, h2⟩ := hl
    obtain ⟨h3, _, h4⟩ := dStep_cost W hd
    obtain ⟨_, h5⟩ := h4 rfl
    left; refine Pays.heap (t := t) hi (fun m hm _ _ => h3 m (by rintro rfl; simp [h1] at hm)) ?_
    have hnd := hi.heap.hnodup t
    rw [h1] at hnd
    have h6 := mul_diff_le W s.heap.pool h.pool
    cases k with
    | pop v => simp [cost, callCosts, onFreed, fCost]; omega
    | rsv k => simp [cost, callCosts, onFreed, fCost]; omega
    | cons thr acc nx =>
      have h7 := h2.1.len_congr (next' := h.next) fun m hm => by rw [h3 m (by rintro rfl; simp [hm] at hnd)]
      cases nx <;> simp [cost, callCosts, onFreed, fCost, h7] <;> omega
    | undo nx =>
      have h7 := h2.1.len_congr (next' := h.next) fun m hm => by rw [h3 m (by rintro rfl; simp [hm] at hnd)]
      cases nx <;> simp [cost, callCosts, onFreed, fCost, h7] <;> omega
  | cload =>
    left; apply Pays.quiet
    simp [cost, callCosts, hsnap]; omega
  | ctestNull _ => left; apply Pays.quiet; simp [cost, callCosts]; omega
  | ctestSome _ => left; apply Pays.quiet; simp [cost, callCosts]; omega
  | @ccasOk rev thr o n heq hn =>
    right
    refine ⟨⟨_, _, _, rfl⟩, chainLen_none _, ?_⟩
    have h1 := mul_diff_le W s.tos ⟨none, cfg.nextTag o.v.tag⟩
    have h2 : chainLen s.heap.next (some n) = s.len := by rw [← hn, ← heq]; rfl
    have h3 := Nat.mul_le_mul_right s.len hK
    cases rev
    · simp [cost, chg, diff_self, stale_eq heq, h2, Nat.add_mul] at h3 ⊢; omega
    · simp [cost, chg, diff_self, stale_eq heq, h2, chainLen_none]; omega
  | ccasFail h =>
    left; apply Pays.quiet
    simp [hsp] at h
    simp [cost, callCosts, hsnap, stale_ne h.2]; omega
  | @crev thr n last =>
    obtain ⟨A, B, vals, h1, h2, h3, _⟩ := hl
    left; apply Pays.quiet
    have h4 := h2.len_tail
    simp [cost, callCosts, h4, Nat.mul_add, Nat.add_mul]; omega
  | @crevSetLast thr n last =>
    obtain ⟨A, B, vals, h1, h2, h3, _⟩ := hl
    have hnd := hi.heap.hnodup t
    rw [h1] at hnd
    left; refine Pays.heap (t := t) hi (fun m hm _ _ => ?_) ?_
    · simp [Heap.setNextPtr, upd_ne _ _ _ (show m ≠ n by rintro rfl; simp [h1] at hm)]
    · have h4 : Chain (s.heap.setNextPtr n last).next (some n) (n :: A.reverse) := by
        refine ⟨rfl, ?_⟩
        simp only [Heap.setNextPtr, upd_self]
        exact h3.congr fun m hm => by
          rw [upd_ne _ _ _ (show m ≠ n by rintro rfl; simp at hm; simp [List.nodup_append] at hnd; exact absurd rfl (hnd.2.2 m hm).1)]
      simp only [cost, callCosts, h4.len, h3.len, Option.toList, chainLen_none]
      simp [Heap.setNextPtr, diff_self]
  | @crevSetMore thr n last m =>
    obtain ⟨A, B, vals, h1, h2, h3, _⟩ := hl
    have hnd := hi.heap.hnodup t
    rw [h1] at hnd
    left; refine Pays.heap (t := t) hi (fun m hm _ _ => ?_) ?_
    · simp [Heap.setNextPtr, upd_ne _ _ _ (show m ≠ n by rintro rfl; simp [h1] at hm)]
    · have h4 : Chain (s.heap.setNextPtr n last).next (some n) (n :: A.reverse) := by
        refine ⟨rfl, ?_⟩
        simp only [Heap.setNextPtr, upd_self]
        exact h3.congr fun m hm => by
          rw [upd_ne _ _ _ (show m ≠ n by rintro rfl; simp at hm; simp [List.nodup_append] at hnd; exact absurd rfl (hnd.2.2 m hm).1)]
      have h5 : Chain (s.heap.setNextPtr n last).next (some m) B := h2.congr fun m hm => by
        simp only [Heap.setNextPtr]
        rw [upd_ne _ _ _ (show m ≠ n by rintro rfl; simp [List.nodup_append, hm] at hnd)]
      simp only [cost, callCosts, h4.len, h3.len, h5.len, h2.len, Option.toList]
      simp [Heap.setNextPtr, diff_self]
  | @capplyErr thr n acc _ => left; apply Pays.quiet; simp [cost, callCosts]
  | @capplyThrow thr n acc v _ _ =>
    left; apply Pays.quiet
    obtain ⟨l', hl', _⟩ := hl.1.head rfl
    have h1 := (hl' ▸ hl.1).len_tail
    simp [cost, callCosts, h1, Nat.mul_add]; omega
  | @capply thr n acc v _ _ =>
    left; apply Pays.quiet
    obtain ⟨l', hl', _⟩ := hl.1.head rfl
    have h1 := (hl' ▸ hl.1).len_tail
    simp [cost, callCosts, h1, Nat.mul_add]; omega
  | cread => left; apply Pays.quiet; simp [cost, callCosts]
  | cdestroyErr _ => left; apply Pays.quiet; simp [cost, callCosts]
  | cdestroy _ =>
    left; refine Pays.heap (t := t) hi (fun m _ _ _ => rfl) ?_
    simp [cost, callCosts, fCost, Heap.setData, diff_self, dCost]; omega
  | eload => left; apply Pays.quiet; simp [cost, callCosts]
  | rsvDone => left; apply Pays.quiet; simp [cost, callCosts]
  | @rsv k =>
    left; refine Pays.heap (t := t) hi (fun m _ hm _ => ?_) ?_
    · have : m ≠ s.heap.nalloc := by
        rintro rfl; exact hm ((hi.heap.raw _).2 (Nat.le_refl _))
      simp [Heap.malloc, upd_ne _ _ _ this]
    · simp [cost, callCosts, fCost, Heap.malloc, diff_self, dCost, Nat.add_mul]; omega
  | rsvThrow => left; apply Pays.quiet; simp [cost, callCosts]
  | @undo n =>
    left; apply Pays.quiet
    obtain ⟨l', hl', _⟩ := hl.1.head rfl
    have h1 := (hl' ▸ hl.1).len_tail
    simp [cost, callCosts, h1, Nat.mul_add]; omega
  | undoDErr _ => left; apply Pays.quiet; simp [cost, callCosts]
  | undoD _ =>
    left; refine Pays.heap (t := t) hi (fun m _ _ _ => rfl) ?_
    simp [cost, callCosts, fCost, Heap.setData, diff_self, dCost]; omega
  | ret => left; apply Pays.quiet; simp [cost, callCosts]

/-- A spurious failure costs one more step. -/
theorem spur_cost {p : PC α} {s' p' e} (ht : Trans cfg t s p .spur s' p' e) :
    s' = s ∧ e = none ∧ cost W K s p' ≤ cost W K s p + 1 := by
  have hsnap : stale s.tos s.tosSnap = 0 := if_pos rfl
  cases ht with
  | allocMore h =>
    obtain ⟨rfl, _, h2⟩ := aStep_more_cost W h
    exact ⟨rfl, rfl, by simp only [cost]; omega⟩
  | @allocGot b k a _ h n ha => exact absurd (aStep_spur ha) (by simp)
  | @allocNull b k a _ h ha => exact absurd (aStep_spur ha) (by simp)
  | @allocBad b k a _ h ha => exact absurd (aStep_spur ha) (by simp)
  | lcasFail _ => exact ⟨rfl, rfl, by simp only [cost, hsnap]; omega⟩
  | pcasFail _ => exact ⟨rfl, rfl, by simp only [cost, hsnap]; omega⟩
  | ccasFail _ => exact ⟨rfl, rfl, by simp only [cost, hsnap]; omega⟩
  | @freeMore k n d _ h d' hd =>
    obtain ⟨_, h1, _⟩ := dStep_cost W hd
    have h2 := (h1 d' rfl).2.2
    cases d <;> simp [dStep] at hd
    obtain ⟨rfl, rfl⟩ := hd
    exact ⟨rfl, rfl, by simp only [cost]; omega⟩
  | freeDone hd => exact absurd rfl ((dStep_cost W hd).2.2 rfl).1

/-- What the steps of others add. -/
theorem others_cost {l F S s' F' S'} (hr : Rely l s F S s' F' S') {p : PC α} (hl : Local cfg s F S l st p) :
    cost W K s' p ≤ cost W K s p + 2 * chg s s' := by
  have h1 := fun a => aCost_diff W s.heap.pool s'.heap.pool a
  have h2 := fun a => dCost_diff W s.heap.pool s'.heap.pool a
  have h3 := fun a => stale_diff s.tos s'.tos a
  have hc : ∀ {q l'}, Chain s.heap.next q l' → (∀ m ∈ l', m ∈ l) →
      chainLen s'.heap.next q = chainLen s.heap.next q :=
    fun h hl => h.len_congr fun m hm => by rw [hr.next m (hl m hm)]
  unfold chg
  cases p with
  | alloc b k a => have := h1 a; simp only [cost]; omega
  | lset top e o r => have := h3 o; simp only [cost]; omega
  | lcas top e o r => have := h3 o; simp only [cost]; omega
  | ptest thr o => have := h3 o; simp only [cost]; omega
  | pcas thr o nx => have := h3 o; simp only [cost]; omega
  | ctest rev thr o => have := h3 o; simp only [cost]; omega
  | ccas rev thr o => have := h3 o; simp only [cost]; omega
  | free k n d =>
    obtain ⟨l', rfl, _, _, h4⟩ := hl
    have := h2 d
    have h5 : fCost W s' k = fCost W s k := by
      cases k with
      | cons thr acc nx => simp only [fCost]; rw [hc h4.1 (by simp +contextual)]
      | undo nx => simp only [fCost]; rw [hc h4.1 (by simp +contextual)]
      | _ => rfl
    simp only [cost, h5]; omega
  | crev thr n last =>
    obtain ⟨A, B, vals, rfl, h4, h5, _⟩ := hl
    simp only [cost]
    rw [hc h4 (by simp +contextual), hc h5 (by simp +contextual)]; omega
  | crevSet thr n last nx =>
    obtain ⟨A, B, vals, rfl, h4, h5, _⟩ := hl
    simp only [cost]
    rw [hc h4 (by simp +contextual), hc h5 (by simp +contextual)]; omega
  | capply thr n acc => simp only [cost]; rw [hc hl.1 (fun _ h => h)]; omega
  | cread thr n acc =>
    obtain ⟨l', rfl, h4, _⟩ := hl
    simp only [cost]
    rw [hr.next n (by simp), hc h4.2 (by simp +contextual)]; omega
  | cdestroy thr n acc nx =>
    obtain ⟨l', rfl, h4, _⟩ := hl
    simp only [cost]; rw [hc h4 (by simp +contextual)]; omega
  | undo n => simp only [cost]; rw [hc hl.1 (fun _ h => h)]; omega
  | undoD n nx =>
    obtain ⟨l', rfl, h4, _⟩ := hl
    simp only [cost]; rw [hc h4 (by simp +contextual)]; omega
  | _ => simp only [cost]; omega

theorem not_idle_of_trans {p p' : PC α} {ch s' e} (ht : Trans cfg t s p ch s' p' e) (he : ∀ r, e ≠ some (.res t r))
    (hpp : p ≠ p') : p' ≠ .idle := by
  cases ht with
  | call ho => exact Ne.symm hpp
  | @allocNull b k a ch h ha =>
    cases k with
    | one => simp [onNull]
    | range acc te => cases te <;> simp [onNull]
  | @allocBad b k a ch h ha =>
    cases k with
    | one => simp [onThrow]
    | range acc te => cases te <;> simp [onThrow]
  | @constrThrow b k n =>
    cases k with
    | one => simp [onThrow]
    | range acc te => cases te <;> simp [onThrow]
  | @rlinkFirst b acc v rest n => cases rest <;> simp [onLinked]
  | @rlinkNext b acc top e v rest n => cases rest <;> simp [onLinked]
  | @freeDone k n d ch h hd =>
    cases k with
    | cons _ _ nx => cases nx <;> simp [onFreed]
    | undo nx => cases nx <;> simp [onFreed]
    | _ => simp [onFreed]
  | @ccasOk rev => cases rev <;> simp
  | ret => exact absurd rfl (he _)
  | _ => simp

/-! ### Lock-freedom -/

/-- A failure of `compare_exchange_weak` although the word has the expected value. -/
def spurious : PC α → Choice (Op α) → Bool
  | _, .spur => true
  | _, _ => false

/-- What a call is charged when `T` threads use the stack. -/
def charge (T : Nat) : Op α → Nat := opCost (2 * T) (2 * T + 8)

/-- The potential. -/
noncomputable def potential (T : Nat) (C : Conf α) : Nat :=
  sumTo (fun u => cost (2 * T) (2 * T + 8) C.s (C.pc u)) T + (2 * T + 8) * C.s.len

variable {n : Nat} {h : History (Op α) (Ret α)} {C : Conf α} {T k f : Nat}

theorem potential_step (hx : FreshExec cfg n h C) (ht : t < T) {ch s' p' e}
    (hs : tstep cfg t C.s (C.pc t) ch = some (s', p', e)) (hok : okFresh cfg C.s (C.pc t) ch) :
    (ch ≠ .spur → potential T ⟨s', upd C.pc t p'⟩ + 1 ≤ potential T C + callCosts (charge T) e.toList) ∧
      (ch = .spur → potential T ⟨s', upd C.pc t p'⟩ ≤ potential T C + callCosts (charge T) e.toList + 1) := by
  obtain ⟨g, c, hi, _⟩ := hx.inv
  obtain ⟨g', c', hi', _, hg, _⟩ := hi.step hs hok.1 hok.2
  have htr := trans_of_tstep hs
  have hoth : ∀ u, u ≠ t → cost (2 * T) (2 * T + 8) s' (upd C.pc t p' u) ≤
      cost (2 * T) (2 * T + 8) C.s (C.pc u) + 2 * chg C.s s' := by
    intro u hu
    rw [upd_ne _ _ _ hu]
    exact others_cost (hg.rely hi.si hi'.si hu) (hi.loc u)
  refine ⟨fun hsp => ?_, fun hsp => ?_⟩
  · have h1 := own_cost (W := 2 * T) (K := 2 * T + 8) (Nat.le_refl _) hi.si (hi.loc t) hok.1 htr hsp
    have h2 : 2 * chg C.s s' * T = 2 * T * chg C.s s' := by rw [Nat.mul_assoc, Nat.mul_comm (chg _ _), ← Nat.mul_assoc]
    rcases h1 with h1 | ⟨_, h3, h1⟩
    · have h4 := sumTo_pay (f := fun u => cost (2 * T) (2 * T + 8) C.s (C.pc u))
        (f' := fun u => cost (2 * T) (2 * T + 8) s' (upd C.pc t p' u)) (t := t)
        (a := 1 + 2 * T * chg C.s s' + (2 * T + 8) * (s'.len - C.s.len)) (x := callCosts (charge T) e.toList)
        (by unfold Pays at h1; simp only [upd_self]; unfold charge; omega) hoth ht
      have h5 : (2 * T + 8) * s'.len ≤ (2 * T + 8) * (s'.len - C.s.len) + (2 * T + 8) * C.s.len := by
        rw [← Nat.mul_add]; exact Nat.mul_le_mul_left _ (by omega)
      unfold potential
      simp only
      omega
    · have h4 := sumTo_pay (f := fun u => cost (2 * T) (2 * T + 8) C.s (C.pc u))
        (f' := fun u => cost (2 * T) (2 * T + 8) s' (upd C.pc t p' u)) (t := t)
        (a := 1 + 2 * T * chg C.s s') (x := (2 * T + 8) * C.s.len)
        (by simp only [upd_self]; omega) hoth ht
      unfold potential
      simp only [h3]
      omega
  · subst hsp
    obtain ⟨rfl, rfl, h1⟩ := spur_cost (W := 2 * T) (K := 2 * T + 8) htr
    have h4 := sumTo_pay (f := fun u => cost (2 * T) (2 * T + 8) C.s (C.pc u))
      (f' := fun u => cost (2 * T) (2 * T + 8) C.s (upd C.pc t p' u)) (t := t) (a := 0) (x := 1) (c := 0)
      (by simpa using h1) (fun u hu => by simp [upd_ne _ _ _ hu]) ht
    unfold potential
    simp only
    omega

/-- **C44 (lock-freedom).** Whatever `T` threads do, the number of steps that are not spurious failures is at most the sum of
the charges of the calls made, plus the number of spurious failures. A charge depends on the call and on `T` only. So steps
cannot go on without calls completing. -/
theorem stack_lock_free (hx : Counted (mach α cfg) (okFresh cfg) spurious T (Conf.initial n) h C k f) :
    k ≤ callCosts (charge T) h + f := by
  have h1 := hx.bound (potential T) (charge T) 1
    (fun h C t ch s' p' e hx ht hs hok hsp => (potential_step hx ht hs hok).1 (by rintro rfl; simp [spurious] at hsp))
    (fun h C t ch s' p' e hx ht hs hok hsp => (potential_step hx ht hs hok).2 (by
      cases ch <;> simp [spurious] at hsp
      rfl))
  have h2 : potential T (Conf.initial n : Conf α) = 0 := by
    have h3 := sumTo_le (f := fun u => cost (2 * T) (2 * T + 8) (Conf.initial n : Conf α).s
      ((Conf.initial n : Conf α).pc u)) (c := 0) (fun u => by simp [Conf.initial, cost]) T
    have h4 : (Conf.initial n : Conf α).s.len = 0 := chainLen_none _
    unfold potential
    rw [h4]; simp at h3 ⊢; exact h3
  omega

/-- **C44 (lock-freedom, completions).** If no call is charged more than `B` -- for single pushes, pops, consume_all and empty
`B = 17 + 6 T` -- then after `k` steps at least `k / B - T` calls have completed. -/
theorem stack_completions (hx : Counted (mach α cfg) (okFresh cfg) spurious T (Conf.initial n) h C k f) {B : Nat}
    (hB : ∀ t o, Event.inv t o ∈ h → charge T o ≤ B) : k ≤ B * (returns h + T) + f := by
  have h1 := stack_lock_free hx
  have h2 := callCosts_le hB
  have h3 := hx.calls_le (lawful cfg) (fun t s p ch s' p' e hs he hpp => ?_) (fun t s p ch s' p' o hs => ?_)
  · have := Nat.mul_le_mul_left B h3
    omega
  · have ht := trans_of_tstep hs
    exact not_idle_of_trans ht he hpp
  · have ht := trans_of_tstep hs
    exact not_idle_of_trans ht (by simp) (by
      cases ht with
      | call ho => exact fun h => by subst h; cases o <;> simp [start] at ho <;> (try split at ho) <;> simp at ho)

theorem charge_single (T : Nat) : ∀ o : Op α, (∀ b vs, o ≠ .pushRange b vs) → (∀ k, o ≠ .reserve k) → charge T o ≤ 17 + 6 * T
  | .push _ _, _, _ => by simp only [charge, opCost]; omega
  | .pushRange b vs, h, _ => absurd rfl (h b vs)
  | .pop _, _, _ => by simp only [charge, opCost]; omega
  | .consumeAll _ _, _, _ => by simp only [charge, opCost]; omega
  | .empty, _, _ => by simp only [charge, opCost]; omega
  | .reserve k, _, h => absurd rfl (h k)

end Verif.Stack
