import Verif.Queue.Unsync

/-!
# Queue: the limit of the ABA protection (C21)

No further code of /repo is modelled here. `queue_linearizable` (C26) says that nothing goes wrong as long as fewer than `M`
tag increments of a word happen between a load and the corresponding comparison. Here: `M` increments of `head_` are enough
for a failure, whatever `M` (an even number; tags have a fixed number of bits, so `M` is a power of two).
-/

namespace Verif.Queue
open Lin

variable {α : Type} {h : History (Op α) (Ret α)}

/-! ### Linearizable histories do not duplicate -/

/-- What linearizability says about multiplicities. -/
theorem Linearizable.delivers_only_offered {fixed : Bool} (hl : Linearizable (spec α fixed) h) :
    (delivered h).Subperm (offered h) := by
  obtain ⟨L, hl⟩ := hl
  exact HbLinearization.queue_delivers hl.any

/-- Values offered by an event. -/
def offeredAt : Option (Event (Op α) (Ret α)) → List α
  | some (.inv _ o) => (offeredBy o).toList
  | _ => []

theorem offered_eq (h : History (Op α) (Ret α)) : offered h = (List.range h.length).flatMap fun i => offeredAt h[i]? := by
  simp only [offered, invs]
  generalize List.range h.length = l
  induction l with
  | nil => rfl
  | cons i l ih =>
    rw [List.flatMap_cons, ← ih, List.filterMap_cons]
    rcases h[i]? with _ | ⟨t, o⟩ | ⟨t, r⟩
    · simp [offeredAt]
    · simp only [offeredAt, List.filterMap_cons]; cases offeredBy o <;> simp
    · simp [offeredAt]

theorem offered_cons (e : Event (Op α) (Ret α)) (h) : offered (e :: h) = offeredAt (some e) ++ offered h := by
  rw [offered_eq, offered_eq]
  simp [List.range_succ_eq_map, List.flatMap_map]

theorem offered_append (h h' : History (Op α) (Ret α)) : offered (h ++ h') = offered h ++ offered h' := by
  induction h with
  | nil => rfl
  | cons e h ih => rw [List.cons_append, offered_cons, offered_cons, ih, List.append_assoc]

/-- Two calls that handed out `v`. -/
theorem two_delivered [DecidableEq α] {i j : Nat} {v : α} (hij : i ≠ j) (hi : outcome h i = some (.pop, .popped (some v)))
    (hj : outcome h j = some (.pop, .popped (some v))) : 2 ≤ (delivered h).count v := by
  have h1 : [(i, Op.pop, Ret.popped (some v)), (j, .pop, .popped (some v))].Subperm (calls h) := by
    refine List.subperm_of_subset (by simp [hij]) fun x hx => ?_
    simp only [List.mem_cons, List.not_mem_nil, or_false] at hx
    rcases hx with rfl | rfl
    · exact mem_calls.2 (outcome_iff.1 hi)
    · exact mem_calls.2 (outcome_iff.1 hj)
  have h2 := filterMap_subperm h1 gotBy
  have h3 := h2.count_le v
  have h4 : List.count v ([(i, Op.pop, Ret.popped (some v)), (j, .pop, .popped (some v))].filterMap gotBy) = 2 := by
    simp [gotBy, handedBy]
  rw [h4] at h3
  exact h3

/-! ### The states of the schedule -/

/-- Two nodes, 0 and 1, with links `a`, `b` and payloads `d0`, `d1`; the freelist starts at `pp`, `head_` and `tail_` point to
`hp` and `tp`. The words have undergone `av`, `bv`, `pv`, `hv` and `tv` tag increments. -/
def two (M : Nat) (a : Option Nat) (av : Nat) (b : Option Nat) (bv : Nat) (d0 d1 pp : Option Nat) (pv hp hv tp tv : Nat) : St Nat :=
  { heap :=
      { next := fun n => if n = 0 then ⟨a, av % M⟩ else if n = 1 then ⟨b, bv % M⟩ else ⟨none, 0⟩
        nver := fun n => if n = 0 then av else if n = 1 then bv else 0
        data := fun n => if n = 0 then d0 else if n = 1 then d1 else none
        nalloc := 2
        pool := ⟨pp, pv % M⟩
        poolVer := pv }
    head := ⟨some hp, hv % M⟩
    headVer := hv
    tail := ⟨some tp, tv % M⟩
    tailVer := tv }

section
variable {M : Nat} {a b d0 d1 pp : Option Nat} {av bv pv hp hv tp tv : Nat} {fixed : Bool}

theorem nextTag_mod (v : Nat) : Cfg.nextTag ⟨M, fixed⟩ (v % M) = (v + 1) % M := by simp [Cfg.nextTag]

/-- Node 1 is the dummy, node 0 is free. -/
theorem two_initial : (Conf.initial ⟨M, fixed⟩ 1 : Conf Nat).s = two M none 0 none 0 none none (some 0) 1 1 0 1 0 := by
  simp only [Conf.initial, St.ofHeap, Heap.allocUnsafe, two, Heap.initial, Heap.addNodes, Heap.malloc, Heap.deallocUnsafe,
    Heap.setNextPtr, Heap.empty, Nat.zero_mod, Cfg.nextTag]
  simp only [upd_apply]
  congr 2
  · funext n; simp only [upd_apply]; (repeat' split) <;> simp_all
  · funext n; simp only [upd_apply]; (repeat' split) <;> simp_all
  · funext n; simp only [upd_apply]; (repeat' split) <;> simp_all

/-- A push that takes node 0 and appends it to node 1. -/
theorem push0 (v : Nat) : (two M a av none bv none d1 (some 0) pv hp hv 1 tv).pushB ⟨M, fixed⟩ 1 false v =
    some (two M none (av + 1) (some 0) (bv + 1) (some v) d1 a (pv + 1) hp hv 0 (tv + 1), .pushed true) := by
  simp only [St.pushB, St.constructU, Heap.allocUnsafe, two, St.appendU, Heap.setData, nextTag_mod, if_true,
    Option.isSome, Bool.false_eq_true, if_false, upd_apply, Nat.one_ne_zero, Option.map_some]
  congr 3
  congr 1
  · funext n; simp only [upd_apply]; (repeat' split) <;> simp_all
  · funext n; simp only [upd_apply]; (repeat' split) <;> simp_all
  · funext n; simp only [upd_apply]; (repeat' split) <;> simp_all

/-- A push that takes node 1 and appends it to node 0. -/
theorem push1 (v : Nat) : (two M none av b bv d0 none (some 1) pv hp hv 0 tv).pushB ⟨M, fixed⟩ 1 false v =
    some (two M (some 1) (av + 1) none (bv + 1) d0 (some v) b (pv + 1) hp hv 1 (tv + 1), .pushed true) := by
  simp only [St.pushB, St.constructU, Heap.allocUnsafe, two, St.appendU, Heap.setData, nextTag_mod, if_true,
    Option.isSome, Bool.false_eq_true, if_false, upd_apply, Nat.one_ne_zero, Nat.zero_ne_one, Option.map_some]
  congr 3
  congr 1
  · funext n; simp only [upd_apply]; (repeat' split) <;> simp_all
  · funext n; simp only [upd_apply]; (repeat' split) <;> simp_all
  · funext n; simp only [upd_apply]; (repeat' split) <;> simp_all

theorem destroy0 : ((two M a av b bv d0 d1 pp pv hp hv tp tv).heap.setData 0 none).deallocUnsafe 0 =
    (two M pp av b bv none d1 (some 0) pv hp hv tp tv).heap := by
  simp only [Heap.deallocUnsafe, two, Heap.setNextPtr, Heap.setData]
  congr 1
  · funext n; simp only [upd_apply]; (repeat' split) <;> simp_all
  · funext n; simp only [upd_apply]; (repeat' split) <;> simp_all

theorem destroy1 : ((two M a av b bv d0 d1 pp pv hp hv tp tv).heap.setData 1 none).deallocUnsafe 1 =
    (two M a av pp bv d0 none (some 1) pv hp hv tp tv).heap := by
  simp only [Heap.deallocUnsafe, two, Heap.setNextPtr, Heap.setData]
  congr 1
  · funext n; simp only [upd_apply]; (repeat' split) <;> simp_all
  · funext n; simp only [upd_apply]; (repeat' split) <;> simp_all

/-- A pop while node 0 is the dummy and node 1 follows. -/
theorem pop0 (v : Nat) : (two M (some 1) av b bv d0 (some v) pp pv 0 hv 1 tv).popU ⟨M, fixed⟩ 1 =
    some (two M pp av b bv none (some v) (some 0) pv 1 (hv + 1) 1 tv, .popped (some v)) := by
  have h1 : (two M (some 1) av b bv d0 (some v) pp pv 0 hv 1 tv).head = ⟨some 0, hv % M⟩ := rfl
  have h2 : (two M (some 1) av b bv d0 (some v) pp pv 0 hv 1 tv).tail = ⟨some 1, tv % M⟩ := rfl
  have h3 : (two M (some 1) av b bv d0 (some v) pp pv 0 hv 1 tv).heap.next 0 = ⟨some 1, av % M⟩ := rfl
  have h4 : (two M (some 1) av b bv d0 (some v) pp pv 0 hv 1 tv).heap.data 1 = some v := rfl
  simp only [St.popU, h1, h2, h3, h4, destroy0, nextTag_mod]
  rfl

/-- A pop while node 1 is the dummy and node 0 follows. -/
theorem pop1 (v : Nat) : (two M a av (some 0) bv (some v) d1 pp pv 1 hv 0 tv).popU ⟨M, fixed⟩ 1 =
    some (two M a av pp bv (some v) none (some 1) pv 0 (hv + 1) 0 tv, .popped (some v)) := by
  have h1 : (two M a av (some 0) bv (some v) d1 pp pv 1 hv 0 tv).head = ⟨some 1, hv % M⟩ := rfl
  have h2 : (two M a av (some 0) bv (some v) d1 pp pv 1 hv 0 tv).tail = ⟨some 0, tv % M⟩ := rfl
  have h3 : (two M a av (some 0) bv (some v) d1 pp pv 1 hv 0 tv).heap.next 1 = ⟨some 0, bv % M⟩ := rfl
  have h4 : (two M a av (some 0) bv (some v) d1 pp pv 1 hv 0 tv).heap.data 0 = some v := rfl
  simp only [St.popU, h1, h2, h3, h4, destroy1, nextTag_mod]
  rfl

end

/-! ### The schedule -/

/-- PC of thread 1; all other threads are idle. -/
def pcs (p : PC Nat) : Nat → PC Nat := fun t => if t = 1 then p else .idle

/-- Executions with `M` tags of a queue constructed for one element, in which at most `M` increments of a word happen between a
load and the corresponding comparison. -/
abbrev AbaExec (M : Nat) (fixed : Bool) (h : History (Op Nat) (Ret Nat)) (C : Conf Nat) : Prop :=
  MSteps (mach Nat ⟨M, fixed⟩) (okFresh ⟨M + 1, fixed⟩) (Conf.initial ⟨M, fixed⟩ 1) h C

section
variable {M : Nat} {fixed : Bool} {h h' : History (Op Nat) (Ret Nat)} {s s' : St Nat} {p p' : PC Nat} {k : Nat}

theorem AbaExec.solo {t} {x x' : PC Nat} (hx : AbaExec M fixed h ⟨s, pcs p⟩)
    (hr : Runs ⟨M, fixed⟩ t k s x h' s' x') (hp : pcs p t = x) :
    AbaExec M fixed (h ++ h') ⟨s', upd (pcs p) t x'⟩ :=
  hx.trans ((hr.mono fun _ _ _ h => h.1 (M + 1) fixed).steps (C := ⟨s, pcs p⟩) rfl hp)

theorem AbaExec.t0 {m : Nat} (hx : AbaExec M fixed h ⟨s, pcs p⟩)
    (hr : ∃ k, k ≤ m ∧ Runs ⟨M, fixed⟩ 0 k s .idle h' s' .idle) : AbaExec M fixed (h ++ h') ⟨s', pcs p⟩ := by
  obtain ⟨k, _, hr⟩ := hr
  have := hx.solo hr rfl
  rwa [upd_same (show pcs p 0 = .idle from rfl)] at this

theorem AbaExec.t1 (hx : AbaExec M fixed h ⟨s, pcs p⟩) (hr : Runs ⟨M, fixed⟩ 1 k s p h' s' p') :
    AbaExec M fixed (h ++ h') ⟨s', pcs p'⟩ := by
  have := hx.solo hr rfl
  rwa [show upd (pcs p) 1 p' = pcs p' by funext t; simp only [upd_apply, pcs]; (repeat' split) <;> simp_all] at this

end

/-- The first half of a pop by a thread alone, up to its compare-exchange. -/
theorem pop_reads {cfg : Cfg} {t x y : Nat} {s : St α} {v} (hx : s.head.ptr = some x) (hy : (s.heap.next x).ptr = some y)
    (ht : s.head.ptr ≠ s.tail.ptr) (hv : s.heap.data y = some v) :
    Runs cfg t 6 s .idle [.inv t .pop] s (.cCas s.headSnap y v) := by
  refine .call (o := .pop) rfl (.step (s' := s) (p' := .cTail s.headSnap) rfl (fun _ _ => trivial)
    (.step (s' := s) (p' := .cNext s.headSnap s.tailSnap) rfl (fun _ _ => trivial)
      (.step (s' := s) (p' := .cCheck s.headSnap s.tailSnap (s.nextSnap x)) ?_ (fun _ _ => trivial)
        (.step (s' := s) (p' := .cData s.headSnap y) ?_ (fun _ _ => fresh_lt _ _)
          (.step (s' := s) ?_ (fun _ _ => trivial) (.nil _ _))))))
  · simp [tstep, St.headSnap, hx]
  · simp [tstep, St.headSnap, St.tailSnap, St.nextSnap, cBranch, hy, ht]
  · simp [tstep, hv]

/-- A pop and a push of the value 0 by thread 0; the pop returns `v`. -/
def cycle (v : Nat) : History (Op Nat) (Ret Nat) :=
  [.inv 0 .pop, .res 0 (.popped (some v)), .inv 0 (.push false 0), .res 0 (.pushed true)]

/-- `2 * k` times. -/
def cycles : Nat → History (Op Nat) (Ret Nat)
  | 0 => []
  | k + 1 => cycles k ++ (cycle 0 ++ cycle 0)

/-- History before the cycles: a push of 1; thread 1 calls `pop` and is stopped before its compare-exchange; thread 0 pops the 1
and pushes 0, twice (`M` is at least 2). -/
def before : History (Op Nat) (Ret Nat) :=
  [.inv 0 (.push false 1), .res 0 (.pushed true), .inv 1 .pop] ++ (cycle 1 ++ cycle 0)

theorem cycles_exec {M pv tv av bv : Nat} {fixed : Bool} {h : History (Op Nat) (Ret Nat)} {p : PC Nat}
    (hx : AbaExec M fixed h ⟨two M none av (some 0) bv (some 0) (some 0) none pv 1 2 0 tv, pcs p⟩) (k : Nat) :
    ∃ av bv pv tv, AbaExec M fixed (h ++ cycles k) ⟨two M none av (some 0) bv (some 0) (some 0) none pv 1 (2 + 2 * k) 0 tv, pcs p⟩ := by
  induction k with
  | zero => exact ⟨_, _, _, _, by simpa [cycles] using hx⟩
  | succ k ih =>
    obtain ⟨av, bv, pv, tv, ih⟩ := ih
    have h1 := (((ih.t0 (pop_runs (pop1 0) 0)).t0 (push_runs (push1 0) 0)).t0 (pop_runs (pop0 0) 0)).t0 (push_runs (push0 0) 0)
    refine ⟨av + 2, bv + 2, pv + 2, tv + 2, ?_⟩
    simpa [cycles, cycle, Nat.mul_add, Nat.add_assoc] using h1

theorem aba_exec {M : Nat} (hM : 0 < M) (h2 : 2 ∣ M) (fixed : Bool) : ∃ s,
    AbaExec M fixed (before ++ cycles (M / 2 - 1) ++ [.res 1 (.popped (some 1))]) ⟨s, fun _ => .idle⟩ := by
  have hid : pcs .idle = fun _ => .idle := by funext t; simp only [pcs]; split <;> rfl
  have h0 : AbaExec M fixed [] ⟨two M none 0 none 0 none none (some 0) 1 1 0 1 0, pcs .idle⟩ := by
    rw [hid, ← two_initial (fixed := fixed)]; exact .refl _
  -- a push of 1
  have h1 := h0.t0 (push_runs (push0 1) 0)
  -- thread 1 reads it
  have h2 := h1.t1 (pop_reads (x := 1) (y := 0) (v := 1) rfl rfl (by simp [two]) rfl)
  -- two removals
  have h3 := (((h2.t0 (pop_runs (pop1 1) 0)).t0 (push_runs (push1 0) 0)).t0 (pop_runs (pop0 0) 0)).t0 (push_runs (push0 0) 0)
  obtain ⟨av, bv, pv, tv, h4⟩ := cycles_exec h3 (M / 2 - 1)
  have hM2 : 2 + 2 * (M / 2 - 1) = M := by omega
  rw [hM2] at h4
  -- the compare-exchange of thread 1 succeeds after `M` increments of the tag
  have h5 := MSteps.step (t := 1) (ch := .base .go) (e := none) h4
    (s' := two M none av (some 0) bv (some 0) (some 0) none pv 0 (M + 1) 0 tv) (p' := .cDestroy 1 1)
    (by simp [mach, tstep, pcs, two, St.headSnap, Cfg.nextTag]) (by simp [okFresh, pcs, Queue.fresh, two, St.headSnap])
  rw [show upd (pcs (.cCas _ 0 1)) 1 (.cDestroy 1 1) = pcs (.cDestroy 1 1) by
    funext t; simp only [upd_apply, pcs]; (repeat' split) <;> simp_all] at h5
  -- and it returns
  have h6 := AbaExec.t1 h5 (p' := .idle) (.step (p' := .free (.pop 1) 1 .load) rfl (fun _ _ => trivial)
    ((free_runs (k := .pop 1) (n := 1)).trans Runs.ret))
  rw [hid] at h6
  exact ⟨_, by simpa [before, cycle] using h6⟩

theorem offered_cycles (k : Nat) : (offered (cycles k)).count 1 = 0 := by
  induction k with
  | zero => rfl
  | succ k ih => rw [cycles, offered_append, List.count_append, ih]; rfl

theorem cycles_tid (k : Nat) : ∀ e ∈ cycles k, e.tid = 0 := by
  induction k with
  | zero => simp [cycles]
  | succ k ih =>
    intro e he
    simp only [cycles, List.mem_append] at he
    rcases he with he | he
    · exact ih e he
    · simp only [cycle, List.mem_cons, List.not_mem_nil, or_false] at he
      rcases he with (rfl | rfl | rfl | rfl) | (rfl | rfl | rfl | rfl) <;> rfl

/-- **C21.** Whatever the (even) number `M` of tag values: there is an execution of a queue constructed for one element in which
at most `M` tag increments of any word happen between a load and the corresponding comparison (with at most `M - 1` of them
every history is linearizable, `queue_linearizable`), all calls return, and a value pushed once is handed out by two pops.
Hence the history is not linearizable. -/
theorem queue_aba_witness {M : Nat} (hM : 0 < M) (h2 : 2 ∣ M) (fixed : Bool) :
    ∃ (h : History (Op Nat) (Ret Nat)) (C : Conf Nat) (v : Nat), AbaExec M fixed h C ∧ (∀ t, C.pc t = .idle) ∧
      (offered h).count v = 1 ∧ 2 ≤ (delivered h).count v ∧ ¬ Linearizable (spec Nat fixed) h := by
  obtain ⟨s, hx⟩ := aba_exec hM h2 fixed
  have h1 : (offered (before ++ cycles (M / 2 - 1) ++ [.res 1 (.popped (some 1))])).count 1 = 1 := by
    simp only [offered_append, List.count_append, offered_cycles]; rfl
  have h2 : 2 ≤ (delivered (before ++ cycles (M / 2 - 1) ++ [.res 1 (.popped (some 1))])).count 1 := by
    refine two_delivered (i := 2) (j := 3) (by omega) ?_ rfl
    have h3 : (cycles (M / 2 - 1)).find? (fun e => e.tid == 1) = none :=
      List.find?_eq_none.2 fun e he => by simp [cycles_tid _ e he]
    have h4 : ∀ t o, (Event.inv t o : Event (Op Nat) (Ret Nat)).tid = t := fun _ _ => rfl
    have h5 : ∀ t r, (Event.res t r : Event (Op Nat) (Ret Nat)).tid = t := fun _ _ => rfl
    simp [outcome, before, cycle, h4, h5, List.find?_append, h3]
  refine ⟨_, _, 1, hx, fun _ => rfl, h1, h2, fun hl => ?_⟩
  have := (Linearizable.delivers_only_offered hl).count_le 1
  omega

/-- 16 bits of tag, as in `compressed` pointers and in indices. -/
example : ∃ (h : History (Op Nat) (Ret Nat)) (C : Conf Nat) (v : Nat), AbaExec (2 ^ 16) true h C ∧ (∀ t, C.pc t = .idle) ∧
    (offered h).count v = 1 ∧ 2 ≤ (delivered h).count v ∧ ¬ Linearizable (spec Nat true) h :=
  queue_aba_witness (by decide) (by decide) true

end Verif.Queue
