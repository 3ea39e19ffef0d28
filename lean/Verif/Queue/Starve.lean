import Verif.Starve
import Verif.Queue.Solo

/-!
# Queue: single calls may be delayed for ever (C53)
-/

namespace Verif.Queue
open Lin

variable {α : Type} {cfg : Cfg} {s : St α} {t u : Nat} {n : Nat} {h : History (Op α) (Ret α)} {C : Conf α}

/-- Nothing goes wrong in the step: no compare-exchange fails spuriously, no read races, nothing throws, no tag has wrapped. -/
def okPlain (cfg : Cfg) (s : St α) (p : PC α) (ch : QChoice α) : Prop :=
  fresh cfg s p ∧ (ch = .base .go ∨ ∃ o, ch = .base (.call o))

/-- The state after a `pop` that turns node `a` into the dummy and releases `x`. -/
def afterPop (cfg : Cfg) (s : St α) (x a : Nat) : St α :=
  { s with
    heap := { (s.heap.setData x none).setNextPtr x s.heap.pool.ptr with pool := ⟨some x, s.heap.pool.tag⟩ }
    head := ⟨some a, cfg.nextTag s.head.tag⟩, headVer := s.headVer + 1 }

/-- The state after the first part of a `push`: node `m` is constructed. -/
def afterConstr (cfg : Cfg) (s : St α) (m : Nat) (v : α) : St α :=
  { s with
    heap := { s.heap with
      data := upd s.heap.data m (some v)
      pool := ⟨(s.heap.next m).ptr, cfg.nextTag s.heap.pool.tag⟩, poolVer := s.heap.poolVer + 1
      next := upd s.heap.next m ⟨none, cfg.nextTag (s.heap.next m).tag⟩
      nver := upd s.heap.nver m (s.heap.nver m + 1) } }

/-- The state after node `m` is appended to node `y`. -/
def afterLink (cfg : Cfg) (s : St α) (m y : Nat) : St α :=
  { s with
    heap := { s.heap with
      next := upd s.heap.next y ⟨some m, cfg.nextTag (s.heap.next y).tag⟩
      nver := upd s.heap.nver y (s.heap.nver y + 1) }
    tail := ⟨some m, cfg.nextTag s.tail.tag⟩, tailVer := s.tailVer + 1 }

theorem plain_go {p : PC α} (h : fresh cfg s p) : okPlain cfg s p (.base .go) := ⟨h, .inl rfl⟩

section
variable {p p' p'' : PC α} {s' s'' : St α} {k : Nat}

theorem al_go (hs : tstep cfg u s p (.base .go) = some (s', p', none)) (hf : fresh cfg s p)
    (hx : Alone (mach α cfg) (okPlain cfg) u k s' p' h s'' p'') : Alone (mach α cfg) (okPlain cfg) u (k + 1) s p h s'' p'' :=
  Alone.cons (m := mach α cfg) (e := none) hs (plain_go hf) hx

theorem al_call (o : Op α) (hs : start cfg o = some p') (hx : Alone (mach α cfg) (okPlain cfg) u k s p' h s'' p'') :
    Alone (mach α cfg) (okPlain cfg) u (k + 1) s .idle (.inv u o :: h) s'' p'' :=
  Alone.cons (m := mach α cfg) (ch := .base (.call o)) (e := some (.inv u o)) (by simp [mach, tstep, hs])
    ⟨trivial, .inr ⟨_, rfl⟩⟩ hx

theorem al_ret (r : Ret α) : Alone (mach α cfg) (okPlain cfg) u 1 s (.ret r) [.res u r] s .idle :=
  Alone.one (m := mach α cfg) (ch := .base .go) (e := some (.res u r)) rfl (plain_go trivial)

end

/-- A `pop` without interference. -/
theorem pop_plain {x y a v} (hx : s.head.ptr = some x) (hy : s.tail.ptr = some y) (hxy : x ≠ y) (ha : (s.heap.next x).ptr = some a)
    (hv : s.heap.data a = some v) :
    Alone (mach α cfg) (okPlain cfg) u 12 s .idle [.inv u .pop, .res u (.popped (some v))] (afterPop cfg s x a) .idle := by
  refine al_call .pop rfl ?_
  refine al_go rfl trivial ?_
  refine al_go rfl trivial ?_
  refine al_go (s' := s) (p' := .cCheck s.headSnap s.tailSnap (s.nextSnap x)) (by simp [tstep, St.headSnap, hx]) trivial ?_
  refine al_go (s' := s) (p' := .cData s.headSnap a)
    (by simp [tstep, St.headSnap, St.tailSnap, St.nextSnap, cBranch, hx, hy, hxy, ha]) (by simp only [fresh, St.headSnap]; omega) ?_
  refine al_go (s' := s) (p' := .cCas s.headSnap a v) (by simp [tstep, hv]) trivial ?_
  refine al_go (s' := { s with head := ⟨some a, cfg.nextTag s.head.tag⟩, headVer := s.headVer + 1 }) (p' := .cDestroy x v)
    (by simp [tstep, St.headSnap, hx]) (by simp only [fresh, St.headSnap]; omega) ?_
  refine al_go rfl trivial ?_
  refine al_go rfl trivial ?_
  refine al_go rfl trivial ?_
  refine al_go (s' := afterPop cfg s x a) (p' := .ret (.popped (some v)))
    (by simp [tstep, dStep, Heap.poolSnap, Heap.setNextPtr, Heap.setData, afterPop, onFreed]) trivial ?_
  exact al_ret _

/-- The first part of a `push`, when the freelist has a node. -/
theorem constr_plain {m} (b : Bool) (v : α) (hm : s.heap.pool.ptr = some m) (hv : s.heap.data m = none) :
    Alone (mach α cfg) (okPlain cfg) u 7 s .idle [.inv u (.push b v)] (afterConstr cfg s m v) (.pTail m) := by
  refine al_call (.push b v) rfl ?_
  refine al_go rfl trivial ?_
  refine al_go (s' := s) (p' := .alloc b v (.cas s.heap.poolSnap (s.heap.next m).ptr))
    (by simp [tstep, aStep, Heap.poolSnap, hm]) trivial ?_
  refine al_go (s' := { s with heap := { s.heap with
      pool := ⟨(s.heap.next m).ptr, cfg.nextTag s.heap.pool.tag⟩, poolVer := s.heap.poolVer + 1 } })
    (p' := .constr b v m) (by simp [tstep, aStep, Heap.poolSnap, hm])
    (by simp only [fresh, aFresh, Heap.poolSnap]; omega) ?_
  refine al_go (by simp [tstep, hv]; exact ⟨rfl, rfl⟩) trivial ?_
  refine al_go rfl trivial ?_
  refine al_go rfl trivial ?_
  exact .nil _ _

/-- The first part of a `push`, when the freelist is empty and may grow. -/
theorem malloc_plain (v : α) (hc : cfg.fixed = false) (hm : s.heap.pool.ptr = none) :
    ∃ s', Alone (mach α cfg) (okPlain cfg) u 6 s .idle [.inv u (.push false v)] s' (.pTail s.heap.nalloc) ∧
      s'.head = s.head ∧ s'.tail = s.tail ∧ ∀ y, (s.heap.next y).ptr = none → (s'.heap.next y).ptr = none := by
  refine ⟨_, al_call (.push false v) rfl (al_go rfl trivial (al_go (s' := { s with heap := s.heap.malloc })
    (p' := .constr false v s.heap.nalloc) (by simp [tstep, aStep, Heap.poolSnap, hm, hc]) trivial
    (al_go (s' := { s with heap := s.heap.malloc.setData s.heap.nalloc (some v) }) (p' := .nload false v s.heap.nalloc)
      (by simp [tstep, Heap.malloc]) trivial (al_go rfl trivial (al_go rfl trivial (.nil _ _)))))), rfl, rfl, ?_⟩
  intro y hy
  simp only [Heap.setData, Heap.malloc, upd_apply]
  split
  · rfl
  · simpa using hy

/-- The second part of a `push` without interference. -/
theorem link_plain {m y} (hy : s.tail.ptr = some y) (hn : (s.heap.next y).ptr = none) :
    Alone (mach α cfg) (okPlain cfg) u 6 s (.pTail m) [.res u (.pushed true)] (afterLink cfg s m y) .idle := by
  refine al_go rfl trivial ?_
  refine al_go (s' := s) (p' := .pCheck m s.tailSnap (s.nextSnap y)) (by simp [tstep, St.tailSnap, hy]) trivial ?_
  refine al_go (s' := s) (p' := .pCas m s.tailSnap (s.nextSnap y))
    (by simp [tstep, St.tailSnap, St.nextSnap, pBranch, hn]) (by simp only [fresh, St.tailSnap]; omega) ?_
  refine al_go (s' := { s with heap := { s.heap with
      next := upd s.heap.next y ⟨some m, cfg.nextTag (s.heap.next y).tag⟩
      nver := upd s.heap.nver y (s.heap.nver y + 1) } }) (p' := .swing .donePush s.tailSnap m)
    (by simp [tstep, St.tailSnap, St.nextSnap, hy]) (by simp only [fresh, St.tailSnap, St.nextSnap, hy]; intro z hz; cases hz; omega) ?_
  refine al_go (s' := afterLink cfg s m y) (p' := .ret (.pushed true))
    (by simp [tstep, St.tailSnap, St.swingTail, afterLink, onSwung]) (by simp only [fresh, St.tailSnap]; omega) ?_
  exact al_ret _

/-- `head_`, `tail_` and `pool_` carry their next tags. -/
structure Swapped (cfg : Cfg) (s s' : St α) : Prop where
  head : s'.head.tag = cfg.nextTag s.head.tag
  tail : s'.tail.tag = cfg.nextTag s.tail.tag
  pool : s'.heap.pool.tag = cfg.nextTag s.heap.pool.tag
  hver : s'.headVer = s.headVer + 1
  tver : s'.tailVer = s.tailVer + 1
  pver : s'.heap.poolVer = s.heap.poolVer + 1

/-- The queue is not empty, and the last node is the one that `tail_` points to. -/
def Settled (s : St α) : Prop :=
  ∃ x y, s.head.ptr = some x ∧ s.tail.ptr = some y ∧ x ≠ y ∧ (s.heap.next y).ptr = none

theorem settled_first (hx : FreshExec cfg n h C) {x y} (h1 : C.s.head.ptr = some x) (h2 : C.s.tail.ptr = some y) (h3 : x ≠ y) :
    ∃ a v, (C.s.heap.next x).ptr = some a ∧ a ≠ x ∧ C.s.heap.data a = some v := by
  obtain ⟨g, c, hi, -⟩ := hx.inv
  obtain ⟨A, y', hy', hL⟩ := hi.si.tl
  obtain rfl : y = y' := by rw [h2] at hy'; exact Option.some.inj hy'
  have hc := hi.si.chain
  have hd := hi.si.data
  have hnd := hi.si.nodup
  rw [h1] at hc
  have hyL : y ∈ g.L := by rcases hL with h | ⟨z, h⟩ <;> simp [h]
  cases hL' : g.L with
  | nil => rw [hL'] at hyL; simp at hyL
  | cons x' l =>
    rw [hL'] at hc hd hnd hyL
    obtain ⟨rfl, hc⟩ : x = x' ∧ Chain C.s.heap.next (C.s.heap.next x').ptr l := by simpa [Chain, eq_comm] using hc
    cases l with
    | nil => simp at hyL; exact absurd hyL.symm h3
    | cons a l =>
      have ha : (C.s.heap.next x).ptr = some a := by simp [Chain] at hc; exact hc.1
      cases hσ : c.st with
      | nil => rw [hσ] at hd; simp at hd
      | cons v vs =>
        rw [hσ] at hd; simp at hd
        exact ⟨a, v, ha, by rintro rfl; simp at hnd, hd.1⟩

/-- Thread `u` pops an element and pushes it back. -/
theorem swap_plain {x y a v} (hx : s.head.ptr = some x) (hy : s.tail.ptr = some y) (hxy : x ≠ y) (ha : (s.heap.next x).ptr = some a)
    (hax : a ≠ x) (hv : s.heap.data a = some v) (hn : (s.heap.next y).ptr = none) :
    ∃ s', Alone (mach α cfg) (okPlain cfg) u 25 s .idle
        [.inv u .pop, .res u (.popped (some v)), .inv u (.push false v), .res u (.pushed true)] s' .idle ∧
      Swapped cfg s s' ∧ Settled s' := by
  have hyx : y ≠ x := fun h => hxy h.symm
  refine ⟨afterLink cfg (afterConstr cfg (afterPop cfg s x a) x v) x y, (pop_plain hx hy hxy ha hv).trans (k' := 13)
    (h' := [.inv u (.push false v), .res u (.pushed true)]) ((constr_plain false v ?_ ?_).trans (link_plain ?_ ?_)), ?_, ?_⟩
  · simp [afterPop]
  · simp [afterPop, Heap.setNextPtr, Heap.setData]
  · simp [afterPop, afterConstr, hy]
  · simp [afterPop, afterConstr, Heap.setNextPtr, Heap.setData, hyx, hn]
  · constructor <;> simp [afterPop, afterConstr, afterLink, Heap.setNextPtr, Heap.setData]
  · exact ⟨a, x, by simp [afterPop, afterConstr, afterLink], by simp [afterLink], hax,
      by simp [afterPop, afterConstr, afterLink, hxy]⟩

/-- Only thread `u` calls and returns. -/
abbrev By (u : Nat) (h : History (Op α) (Ret α)) : Prop := ∀ e ∈ h, e.tid = u

theorem Watched.fresh {k h'} {C' : Conf α} (hx : FreshExec cfg n h C) (hw : Watched (mach α cfg) (okPlain cfg) t C h' C' k) :
    FreshExec cfg n (h ++ h') C' := hx.trans (hw.steps.mono fun _ _ _ h => h.1)

/-- One round: thread `t` goes from the loop head `p` to a comparison, thread `u` takes an element and appends it again, the
comparison of `t` fails. -/
theorem round {p : St α → PC α} (htu : u ≠ t)
    (h1 : ∀ {h} {C : Conf α}, FreshExec cfg n h C → C.pc t = p C.s → Settled C.s → ∃ s' q j,
      Alone (mach α cfg) (okPlain cfg) t j C.s (p C.s) [] s' q ∧ Settled s' ∧
      ∀ s'', Swapped cfg s' s'' → tstep cfg t s'' q (.base .go) = some (s'', p s'', none) ∧ fresh cfg s'' q)
    (N : Nat) {C : Conf α} (hx : FreshExec cfg n h C) (hu : C.pc u = .idle) (ht : C.pc t = p C.s) (hs : Settled C.s) :
    ∃ h' C' k, N ≤ k ∧ Watched (mach α cfg) (okPlain cfg) t C h' C' k ∧ By u h' := by
  obtain ⟨h', C', k, hk, hw, hJ, hy⟩ := Watched.rounds (m := mach α cfg) (ok := okPlain cfg) (t := t) (u := u)
    (fun C => (∃ h, FreshExec cfg n h C) ∧ C.pc u = .idle ∧ C.pc t = p C.s ∧ Settled C.s) (fun C hJ => by
      obtain ⟨⟨h, hx⟩, hu, ht, hs⟩ := hJ
      obtain ⟨s₁, q, j, ha, ⟨x, y, e1, e2, e3, e4⟩, hq⟩ := h1 hx ht hs
      have w1 := Watched.alone ha rfl ht
      have hx1 := Watched.fresh hx w1
      obtain ⟨a, v, e5, e6, e7⟩ := settled_first hx1 e1 e2 e3
      obtain ⟨s', hs', hsw, hse⟩ := swap_plain (cfg := cfg) (u := u) e1 e2 e3 e5 e6 e7 e4
      have w2 := w1.trans (.by_other htu hs' rfl (by show upd C.pc t q u = _; rw [upd_ne _ _ _ htu, hu]))
      have h5 := hq s' hsw
      have w3 := w2.trans (.own (ch := .base .go) (e := none) (s' := s') (p' := p s') .refl
        (by show tstep cfg t s' (upd (upd C.pc t q) u .idle t) (.base .go) = _
            rw [upd_ne _ _ _ htu.symm, upd_self]; exact h5.1)
        (by show okPlain cfg s' (upd (upd C.pc t q) u .idle t) (.base .go)
            rw [upd_ne _ _ _ htu.symm, upd_self]; exact plain_go h5.2))
      refine ⟨_, _, _, by omega, w3, ⟨⟨_, Watched.fresh hx w3⟩, ?_, ?_, hse⟩, ?_⟩
      · simp [upd_ne _ _ _ htu]
      · simp
      · simp [Event.tid]) N ⟨⟨h, hx⟩, hu, ht, hs⟩
  exact ⟨h', C', k, hk, hw, hy⟩

theorem pool_data (hx : FreshExec cfg n h C) {m} (hm : C.s.heap.pool.ptr = some m) : C.s.heap.data m = none := by
  obtain ⟨g, c, hi, -⟩ := hx.inv
  have hc := hi.si.heap.chain
  rw [hm] at hc
  cases hF : g.F with
  | nil => rw [hF] at hc; simp [Chain] at hc
  | cons a l =>
    have ha : m = a := by rw [hF] at hc; simp [Chain] at hc; exact hc.1
    exact hi.si.heap.fdata m (.inl ((hi.si.heap.fmem m).2 (by rw [hF, ha]; simp)))

theorem held_ne_tail (hx : FreshExec cfg n h C) {k m d y} (hp : C.pc t = .free k m d) (hy : C.s.tail.ptr = some y) : y ≠ m := by
  rintro rfl
  obtain ⟨g, c, hi, -⟩ := hx.inv
  have hl := hi.loc t
  rw [hp] at hl
  have h1 := (hi.si.heap.hmem t y).2 (by rw [hl.1]; simp)
  obtain ⟨A, x, hx', hL⟩ := hi.si.tl
  obtain rfl : x = y := by rw [hy] at hx'; exact (Option.some.inj hx').symm
  have h2 := (hi.si.mem x).2 (by rcases hL with h | ⟨z, h⟩ <;> simp [h])
  rw [h1] at h2; simp at h2

/-- The calls that can be delayed, and when. -/
def Delayable (cfg : Cfg) (s : St α) : Op α → Prop
  | .push b _ => s.heap.pool.ptr ≠ none ∨ b = false ∧ cfg.fixed = false
  | .reserve k => k ≠ 0 ∧ cfg.fixed = false
  | .pop => True
  | .empty => False

/-- **C53**: no single call of the queue is certain to finish. From every reachable state of a non-empty queue in which `tail_`
is up to date and threads `t ≠ u` are between calls, and for every number `N`, there is a continuation in which `t` calls any
function but `empty` and makes `N` steps without returning, although only `t` and `u` move, `u` merely pops an element and
pushes it again, over and over, no compare-exchange fails spuriously, no read is torn, nothing throws and no tag wraps. -/
theorem queue_not_wait_free (hM : cfg.M ≠ 1) (hx : FreshExec cfg n h C) (htu : u ≠ t) (ht : C.pc t = .idle) (hu : C.pc u = .idle)
    (hs : Settled C.s) (o : Op α) (ho : Delayable cfg C.s o) (N : Nat) :
    ∃ h' C' k, N ≤ k ∧ Watched (mach α cfg) (okPlain cfg) t C (.inv t o :: h') C' k ∧ By u h' := by
  have hcas : ∀ {x y : Tagged}, y.tag = cfg.nextTag x.tag → y ≠ x := by
    intro x y h1 h2
    rw [h2] at h1
    exact cfg.nextTag_ne hM x.tag h1.symm
  have fin : ∀ {s' p₀ j}, Alone (mach α cfg) (okPlain cfg) t j C.s .idle [.inv t o] s' p₀ →
      (FreshExec cfg n (h ++ [.inv t o]) ⟨s', upd C.pc t p₀⟩ →
        ∃ h' C' k, N ≤ k ∧ Watched (mach α cfg) (okPlain cfg) t ⟨s', upd C.pc t p₀⟩ h' C' k ∧ By u h') →
      ∃ h' C' k, N ≤ k ∧ Watched (mach α cfg) (okPlain cfg) t C (.inv t o :: h') C' k ∧ By u h' := by
    intro s' p₀ j h1 h2
    have w1 := Watched.alone h1 rfl ht
    obtain ⟨h', C', k, h2, h3, h4⟩ := h2 (Watched.fresh hx w1)
    exact ⟨h', C', j + k, by omega, w1.trans h3, h4⟩
  have hu' : ∀ s' p₀, (⟨s', upd C.pc t p₀⟩ : Conf α).pc u = .idle := by intro s' p₀; simp [htu, hu]
  have hpush : ∀ {s' : St α} {a : Nat}, Settled s' → FreshExec cfg n (h ++ [.inv t o]) ⟨s', upd C.pc t (.pTail a)⟩ →
      ∃ h' C' k, N ≤ k ∧ Watched (mach α cfg) (okPlain cfg) t ⟨s', upd C.pc t (.pTail a)⟩ h' C' k ∧ By u h' := by
    intro s' a h1 hx'
    refine round (cfg := cfg) (p := fun _ => .pTail a) htu ?_ N hx' (hu' _ _) (by simp) h1
    intro _ D _ _ hs'
    obtain ⟨x, y, e1, e2, e3, e4⟩ := id hs'
    refine ⟨D.s, .pCheck a D.s.tailSnap (D.s.nextSnap y), 2, al_go rfl trivial (al_go (by simp [tstep, St.tailSnap, e2]) trivial (.nil _ _)), hs', ?_⟩
    intro s'' hsw
    exact ⟨by simp [tstep, St.tailSnap, hcas hsw.tail], by simp only [fresh, St.tailSnap, hsw.tver]; omega⟩
  obtain ⟨x, y, e1, e2, e3, e4⟩ := id hs
  cases o with
  | push b w =>
    rcases Option.eq_none_or_eq_some C.s.heap.pool.ptr with hp | ⟨a, ha⟩
    · obtain ⟨rfl, hc⟩ : b = false ∧ cfg.fixed = false := by simpa [Delayable, hp] using ho
      obtain ⟨s', h1, h2, h3, h4⟩ := malloc_plain (cfg := cfg) (u := t) w hc hp
      exact fin h1 (hpush ⟨x, y, by rw [h2, e1], by rw [h3, e2], e3, h4 y e4⟩)
    · refine fin (constr_plain b w ha (pool_data hx ha)) (hpush ⟨x, y, e1, e2, e3, ?_⟩)
      simp only [afterConstr, upd_apply]
      split
      · rfl
      · exact e4
  | pop =>
    refine fin (al_call .pop rfl (.nil _ _)) fun hx' => ?_
    refine round (cfg := cfg) (p := fun _ => .cHead) htu ?_ N hx' (hu' _ _) (by simp) hs
    intro _ D _ _ hs'
    obtain ⟨x, y, e1, e2, e3, e4⟩ := id hs'
    refine ⟨D.s, .cCheck D.s.headSnap D.s.tailSnap (D.s.nextSnap x), 3,
      al_go rfl trivial (al_go rfl trivial (al_go (by simp [tstep, St.headSnap, e1]) trivial (.nil _ _))), hs', ?_⟩
    intro s'' hsw
    exact ⟨by simp [tstep, St.headSnap, hcas hsw.head], by simp only [fresh, St.headSnap, hsw.hver]; omega⟩
  | reserve k =>
    obtain ⟨h1, hc⟩ := ho
    obtain ⟨j, rfl⟩ := Nat.exists_eq_succ_of_ne_zero h1
    refine fin (al_call (p' := .rsv (j + 1)) (.reserve (j + 1)) (by simp [start, hc]) (al_go rfl trivial (al_go rfl trivial (.nil _ _))))
      fun hx' => ?_
    refine round (cfg := cfg) (p := fun s => .free (.rsv j) C.s.heap.nalloc (.set s.heap.poolSnap)) htu ?_ N hx' (hu' _ _) (by simp) ?_
    · intro _ D hD hp hs'
      obtain ⟨x, y, e1, e2, e3, e4⟩ := id hs'
      refine ⟨_, _, 1, al_go rfl trivial (.nil _ _), ⟨x, y, e1, e2, e3, ?_⟩, ?_⟩
      · simp [Heap.setNextPtr, held_ne_tail hD hp e2, e4]
      · intro s'' hsw
        exact ⟨by simp [tstep, dStep, Heap.poolSnap, hcas (x := D.s.heap.pool) hsw.pool], trivial⟩
    · refine ⟨x, y, e1, e2, e3, ?_⟩
      simp only [Heap.malloc, upd_apply]
      split
      · rfl
      · exact e4
  | empty => exact ho.elim

/-- **C53**: a call of `empty`, in contrast, is finished by its fourth step, whatever the other threads do, and it is never
blocked: as long as it has not returned, its thread has made at most three steps and can make the next one. -/
theorem queue_empty_wait_free {k} {C' : Conf α} (ht : C.pc t = .idle)
    (hx : Watched (mach α cfg) (fun _ _ _ => True) t C h C' k) (hh : h.filter (·.tid = t) = [.inv t .empty]) :
    k ≤ 3 ∧ ∃ x, tstep cfg t C'.s (C'.pc t) (.base .go) = some x := by
  have key : (h.filter (·.tid = t) = [] → C'.pc t = .idle ∧ k = 0) ∧
      (h.filter (·.tid = t) = [.inv t .empty] → (C'.pc t = .eHead ∧ k = 1) ∨
        ((∃ H, C'.pc t = .eTail H) ∨ ∃ T, C'.pc t = .eHead2 T) ∧ k = 2 ∨ (∃ b, C'.pc t = .ret (.isEmpty b)) ∧ k = 3) := by
    clear hh
    induction hx with
    | refl => exact ⟨fun _ => ⟨ht, rfl⟩, by simp⟩
    | @other h C k u ch s' p' e _ hu hs _ ih =>
      have he : ∀ x ∈ e.toList, x.tid = u := by
        cases e with
        | none => simp
        | some e => simpa using ((lawful cfg).event hs).2
      have : e.toList.filter (·.tid = t) = [] := by
        rw [List.filter_eq_nil_iff]; intro x hx'; rw [he x hx']; simpa using hu
      rw [List.filter_append, this, List.append_nil]
      simpa [upd_ne _ _ _ hu.symm] using ih
    | @own h C k ch s' p' e _ hs _ ih =>
      have hs : tstep cfg t C.s (C.pc t) ch = some (s', p', e) := hs
      simp only [List.filter_append, upd_self]
      have call : C.pc t = .idle → ∃ o, start cfg o = some p' ∧ e = some (.inv t o) := by
        intro h1
        rw [h1] at hs
        rcases ch with ch | _ | _ <;> (try cases ch) <;> simp [tstep] at hs
        exact ⟨_, hs.1, hs.2.2.symm⟩
      refine ⟨fun hn => ?_, fun hn => ?_⟩
      · obtain ⟨h1, h2⟩ := List.append_eq_nil_iff.1 hn
        obtain ⟨o, -, rfl⟩ := call (ih.1 h1).1
        simp [Event.tid] at h2
      · rcases List.append_eq_singleton_iff.1 hn with ⟨h1, h2⟩ | ⟨h1, h2⟩
        · obtain ⟨h3, rfl⟩ := ih.1 h1
          obtain ⟨o, hp, rfl⟩ := call h3
          simp [Event.tid] at h2
          subst h2
          simp [start] at hp
          exact .inl ⟨hp.symm, rfl⟩
        · rcases ih.2 h1 with ⟨h3, rfl⟩ | ⟨⟨H, h3⟩ | ⟨T, h3⟩, rfl⟩ | ⟨⟨b, h3⟩, rfl⟩
          · rw [h3] at hs
            rcases ch with ch | _ | _ <;> (try cases ch) <;> simp [tstep] at hs
            · obtain ⟨rfl, rfl, rfl⟩ := hs; exact .inr (.inl ⟨.inl ⟨_, rfl⟩, rfl⟩)
            · obtain ⟨rfl, rfl, rfl⟩ := hs; exact .inr (.inl ⟨.inr ⟨_, rfl⟩, rfl⟩)
          · rw [h3] at hs
            rcases ch with ch | _ | _ <;> (try cases ch) <;> simp [tstep] at hs
            obtain ⟨rfl, rfl, rfl⟩ := hs; exact .inr (.inr ⟨⟨_, rfl⟩, rfl⟩)
          · rw [h3] at hs
            rcases ch with ch | _ | _ <;> (try cases ch) <;> simp [tstep] at hs
            obtain ⟨rfl, rfl, rfl⟩ := hs; exact .inr (.inr ⟨⟨_, rfl⟩, rfl⟩)
          · rw [h3] at hs
            rcases ch with ch | _ | _ <;> (try cases ch) <;> simp [tstep] at hs
            obtain ⟨rfl, rfl, rfl⟩ := hs
            simp [Event.tid] at h2
  rcases key.2 hh with ⟨h1, rfl⟩ | ⟨⟨_, h1⟩ | ⟨_, h1⟩, rfl⟩ | ⟨⟨b, h1⟩, rfl⟩
  all_goals exact ⟨by omega, _, by rw [h1]; rfl⟩

/-! ### A concrete case: a fixed-size queue for two elements, `uint16_t` tags, after one `push` -/

private def one : St Nat := afterLink ⟨65536, true⟩ (afterConstr ⟨65536, true⟩ (Conf.initial ⟨65536, true⟩ 2).s 1 5) 1 2

private theorem one_exec : FreshExec (⟨65536, true⟩ : Cfg) 2 [.inv 1 (.push false 5), .res 1 (.pushed true)]
    ⟨one, upd (Conf.initial ⟨65536, true⟩ 2).pc 1 .idle⟩ :=
  (((constr_plain (cfg := ⟨65536, true⟩) (u := 1) (m := 1) false 5 rfl rfl).trans (link_plain (m := 1) (y := 2) rfl rfl)).steps
    (C := Conf.initial ⟨65536, true⟩ 2) rfl rfl).mono fun _ _ _ h => h.1

/-- C53: thread 0 makes a million steps in one `push`; one node is left in the freelist for it -/
example : ∃ h' C' k, 1000000 ≤ k ∧ Watched (mach Nat ⟨65536, true⟩) (okPlain ⟨65536, true⟩) 0
    ⟨one, upd (Conf.initial ⟨65536, true⟩ 2).pc 1 .idle⟩ (.inv 0 (.push true 7) :: h') C' k ∧ By 1 h' :=
  queue_not_wait_free (by simp) one_exec (by simp) rfl rfl ⟨2, 1, rfl, rfl, by simp, rfl⟩ (.push true 7)
    (Or.inl (by show some 0 ≠ none; simp)) _

/-- C53: `empty` between its two loads, while thread 1 has called `pop` -/
example : let C : Conf Nat := ⟨one, upd (Conf.initial ⟨65536, true⟩ 2).pc 1 .idle⟩
    ∃ C', Watched (mach Nat ⟨65536, true⟩) (fun _ _ _ => True) 0 C [.inv 0 .empty, .inv 1 .pop] C' 2 :=
  ⟨_, .own (m := mach Nat ⟨65536, true⟩) (ch := QChoice.base .go) (e := none)
    (.other (m := mach Nat ⟨65536, true⟩) (u := 1) (ch := QChoice.base (.call .pop)) (e := some (.inv 1 .pop))
      (.own (m := mach Nat ⟨65536, true⟩) (ch := QChoice.base (.call .empty)) (e := some (.inv 0 .empty)) .refl rfl trivial)
      (by simp) rfl trivial) rfl trivial⟩

end Verif.Queue
