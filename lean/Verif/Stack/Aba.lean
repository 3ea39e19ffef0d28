import Verif.Stack.Unsync

/-!
# Stack: the limit of the ABA protection (C21)

No further code of /repo is modelled here. `stack_linearizable` (C14) says that nothing goes wrong as long as fewer than `M`
tag increments of a word happen between a load and the corresponding compare-exchange. Here: `M` increments are enough for a
failure, whatever `M`.
-/

namespace Verif.Stack
open Lin

variable {α : Type} {h : History (Op α) (Ret α)}

/-! ### Linearizable histories do not duplicate -/

/-- What linearizability says about multiplicities. -/
theorem Linearizable.delivers_only_offered {fixed : Bool} (hl : Linearizable (spec α fixed) h) :
    (delivered h).Subperm (offered h) := by
  obtain ⟨L, hl⟩ := hl
  obtain ⟨σ, hrun⟩ := hl.legal
  exact Linearization.delivers_only_offered hl hrun

/-- Values offered by an event. -/
def offeredAt : Option (Event (Op α) (Ret α)) → List α
  | some (.inv _ o) => offeredBy o
  | _ => []

theorem offered_eq (h : History (Op α) (Ret α)) : offered h = (List.range h.length).flatMap fun i => offeredAt h[i]? := by
  simp only [offered, invs]
  generalize List.range h.length = l
  induction l with
  | nil => rfl
  | cons i l ih =>
    rw [List.flatMap_cons, ← ih, List.filterMap_cons]
    rcases h[i]? with _ | ⟨t, o⟩ | ⟨t, r⟩ <;> simp [offeredAt]

theorem offered_cons (e : Event (Op α) (Ret α)) (h) : offered (e :: h) = offeredAt (some e) ++ offered h := by
  rw [offered_eq, offered_eq]
  simp [List.range_succ_eq_map, List.flatMap_map]

theorem offered_append (h h' : History (Op α) (Ret α)) : offered (h ++ h') = offered h ++ offered h' := by
  induction h with
  | nil => rfl
  | cons e h ih => rw [List.cons_append, offered_cons, offered_cons, ih, List.append_assoc]

theorem outcome_append (h h' : History (Op α) (Ret α)) (i : Nat) : outcome (h ++ h') (h.length + i) = outcome h' i := by
  unfold outcome
  rw [List.getElem?_append_right (by omega), Nat.add_sub_cancel_left, Nat.add_assoc, List.drop_append,
    List.drop_eq_nil_of_le (by omega), Nat.add_sub_cancel_left, List.nil_append]

/-- Two calls that handed out `v`. -/
theorem two_delivered [DecidableEq α] {i j : Nat} {v : α} (hij : i ≠ j) (hi : outcome h i = some (.pop false, .popped (some v)))
    (hj : outcome h j = some (.pop false, .popped (some v))) : 2 ≤ (delivered h).count v := by
  have h1 : [(i, Op.pop false, Ret.popped (some v)), (j, .pop false, .popped (some v))].Subperm (calls h) := by
    refine List.subperm_of_subset (by simp [hij]) fun x hx => ?_
    simp only [List.mem_cons, List.not_mem_nil, or_false] at hx
    rcases hx with rfl | rfl
    · exact mem_calls.2 (outcome_iff.1 hi)
    · exact mem_calls.2 (outcome_iff.1 hj)
  have h2 := subperm_flatMap h1 (fun x => handedBy x.2.1 x.2.2)
  have h3 := h2.count_le v
  have h4 : List.count v ([(i, Op.pop false, Ret.popped (some v)), (j, .pop false, .popped (some v))].flatMap
      fun x => handedBy x.2.1 x.2.2) = 2 := by simp [handedBy]
  rw [h4] at h3
  exact h3

/-! ### The states of the schedule -/

/-- Two nodes, 0 and 1, with links `a`, `b` and payloads `d0`, `d1`; the freelist starts at `pp`, the stack at `tp`; `pool_` and
`tos` have undergone `pv` and `tv` tag increments. -/
def two (M : Nat) (a b d0 d1 pp : Option Nat) (pv : Nat) (tp : Option Nat) (tv : Nat) : St Nat :=
  { heap :=
      { next := fun n => if n = 0 then ⟨a, 0⟩ else if n = 1 then ⟨b, 0⟩ else ⟨none, 0⟩
        nver := fun _ => 0
        data := fun n => if n = 0 then d0 else if n = 1 then d1 else none
        nalloc := 2
        pool := ⟨pp, pv % M⟩
        poolVer := pv }
    tos := ⟨tp, tv % M⟩
    tosVer := tv }

section
variable {M : Nat} {a b d0 d1 pp tp : Option Nat} {pv tv : Nat} {fixed : Bool}

theorem two_initial : (Conf.initial 2 : Conf Nat).s = two M none (some 0) none none (some 1) 0 none 0 := by
  simp only [Conf.initial, two, Heap.initial, Heap.addNodes, Heap.malloc, Heap.deallocUnsafe, Heap.setNextPtr, Heap.empty,
    Nat.zero_mod]
  congr 2
  · funext n; simp only [upd_apply]; (repeat' split) <;> simp_all
  · funext n; simp only [upd_apply]; (repeat' split) <;> simp_all
  · funext n; simp only [upd_apply]; (repeat' split) <;> simp_all

theorem nextTag_mod (v : Nat) : Cfg.nextTag ⟨M, fixed⟩ (v % M) = (v + 1) % M := by simp [Cfg.nextTag]

theorem next0 (x y : Tagged) (p : Option Nat) (f : Nat → Tagged) (hf : f = fun n => if n = 0 then x else if n = 1 then y else ⟨none, 0⟩) :
    upd f 0 ⟨p, x.tag⟩ = fun n => if n = 0 then ⟨p, x.tag⟩ else if n = 1 then y else ⟨none, 0⟩ := by
  subst hf; funext n; simp only [upd_apply]; (repeat' split) <;> simp_all

theorem push0 (v : Nat) : (two M a b none d1 (some 0) pv tp tv).pushB ⟨M, fixed⟩ false v =
    some (two M tp b (some v) d1 a (pv + 1) (some 0) tv, .pushed true) := by
  simp only [St.pushB, St.constructU, Heap.allocUnsafe, two, St.linkU, Heap.setData, Heap.setNextPtr, nextTag_mod, if_true,
    Option.isSome, Bool.false_eq_true, if_false]
  congr 3
  congr 1
  · funext n; simp only [upd_apply]; (repeat' split) <;> simp_all
  · funext n; simp only [upd_apply]; (repeat' split) <;> simp_all

theorem push1 (v : Nat) : (two M a b d0 none (some 1) pv tp tv).pushB ⟨M, fixed⟩ false v =
    some (two M a tp d0 (some v) b (pv + 1) (some 1) tv, .pushed true) := by
  simp only [St.pushB, St.constructU, Heap.allocUnsafe, two, St.linkU, Heap.setData, Heap.setNextPtr, nextTag_mod, if_true,
    Option.isSome, Bool.false_eq_true, if_false, Nat.one_ne_zero]
  congr 3
  congr 1
  · funext n; simp only [upd_apply]; (repeat' split) <;> simp_all
  · funext n; simp only [upd_apply]; (repeat' split) <;> simp_all

theorem free0 : (two M a b d0 d1 pp pv tp tv).heap.deallocUnsafe 0 = (two M pp b d0 d1 (some 0) pv tp tv).heap := by
  simp only [Heap.deallocUnsafe, two, Heap.setNextPtr]
  congr 1
  funext n; simp only [upd_apply]; (repeat' split) <;> simp_all

theorem free1 : (two M a b d0 d1 pp pv tp tv).heap.deallocUnsafe 1 = (two M a pp d0 d1 (some 1) pv tp tv).heap := by
  simp only [Heap.deallocUnsafe, two, Heap.setNextPtr]
  congr 1
  funext n; simp only [upd_apply]; (repeat' split) <;> simp_all

theorem data0 (d : Option Nat) : (two M a b d0 d1 pp pv tp tv).heap.setData 0 d = (two M a b d d1 pp pv tp tv).heap := by
  simp only [two, Heap.setData]
  congr 1
  funext n; simp only [upd_apply]; (repeat' split) <;> simp_all

theorem data1 (d : Option Nat) : (two M a b d0 d1 pp pv tp tv).heap.setData 1 d = (two M a b d0 d pp pv tp tv).heap := by
  simp only [two, Heap.setData]
  congr 1
  funext n; simp only [upd_apply]; (repeat' split) <;> simp_all

theorem pop0 (v : Nat) : (two M a b (some v) d1 pp pv (some 0) tv).popU ⟨M, fixed⟩ =
    some (two M pp b none d1 (some 0) pv a (tv + 1), .popped (some v)) := by
  have h1 : (two M a b (some v) d1 pp pv (some 0) tv).heap.data 0 = some v := rfl
  have h2 : (two M a b (some v) d1 pp pv (some 0) tv).tos = ⟨some 0, tv % M⟩ := rfl
  simp only [St.popU, h2, h1, data0, free0, nextTag_mod]
  rfl

theorem pop1 (v : Nat) : (two M a b d0 (some v) pp pv (some 1) tv).popU ⟨M, fixed⟩ =
    some (two M a pp d0 none (some 1) pv b (tv + 1), .popped (some v)) := by
  have h1 : (two M a b d0 (some v) pp pv (some 1) tv).heap.data 1 = some v := rfl
  have h2 : (two M a b d0 (some v) pp pv (some 1) tv).tos = ⟨some 1, tv % M⟩ := rfl
  simp only [St.popU, h2, h1, data1, free1, nextTag_mod]
  rfl

end

/-! ### The schedule -/

/-- PCs of threads 1, 2, 3; all other threads are idle. -/
def pcs (p q r : PC Nat) : Nat → PC Nat := fun t => if t = 1 then p else if t = 2 then q else if t = 3 then r else .idle

/-- Executions with `M` tags in which at most `M` increments of a word happen between a load and the corresponding
compare-exchange. -/
abbrev AbaExec (M : Nat) (fixed : Bool) (h : History (Op Nat) (Ret Nat)) (C : Conf Nat) : Prop :=
  MSteps (mach Nat ⟨M, fixed⟩) (okFresh ⟨M + 1, fixed⟩) (Conf.initial 2) h C

section
variable {M : Nat} {fixed : Bool} {h h' : History (Op Nat) (Ret Nat)} {s s' : St Nat} {p q r p' q' r' : PC Nat} {k : Nat}

theorem AbaExec.solo {t} {x x' : PC Nat} (hx : AbaExec M fixed h ⟨s, pcs p q r⟩)
    (hr : Runs ⟨M, fixed⟩ t k s x h' s' x') (hp : pcs p q r t = x) :
    AbaExec M fixed (h ++ h') ⟨s', upd (pcs p q r) t x'⟩ :=
  hx.trans ((hr.mono fun _ _ _ h => h.1 (M + 1) fixed).steps (C := ⟨s, pcs p q r⟩) rfl hp)

theorem AbaExec.t0 (hx : AbaExec M fixed h ⟨s, pcs p q r⟩) (hr : ∃ k, k ≤ 10 ∧ Runs ⟨M, fixed⟩ 0 k s .idle h' s' .idle) :
    AbaExec M fixed (h ++ h') ⟨s', pcs p q r⟩ := by
  obtain ⟨k, _, hr⟩ := hr
  have := hx.solo hr rfl
  rwa [upd_same (show pcs p q r 0 = .idle from rfl)] at this

theorem AbaExec.t1 (hx : AbaExec M fixed h ⟨s, pcs p q r⟩) (hr : Runs ⟨M, fixed⟩ 1 k s p h' s' p') :
    AbaExec M fixed (h ++ h') ⟨s', pcs p' q r⟩ := by
  have := hx.solo hr rfl
  rwa [show upd (pcs p q r) 1 p' = pcs p' q r by funext t; simp only [upd_apply, pcs]; (repeat' split) <;> simp_all] at this

theorem AbaExec.t2 (hx : AbaExec M fixed h ⟨s, pcs p q r⟩) (hr : Runs ⟨M, fixed⟩ 2 k s q h' s' q') :
    AbaExec M fixed (h ++ h') ⟨s', pcs p q' r⟩ := by
  have := hx.solo hr rfl
  rwa [show upd (pcs p q r) 2 q' = pcs p q' r by funext t; simp only [upd_apply, pcs]; (repeat' split) <;> simp_all] at this

theorem AbaExec.t3 (hx : AbaExec M fixed h ⟨s, pcs p q r⟩) (hr : Runs ⟨M, fixed⟩ 3 k s r h' s' r') :
    AbaExec M fixed (h ++ h') ⟨s', pcs p q r'⟩ := by
  have := hx.solo hr rfl
  rwa [show upd (pcs p q r) 3 r' = pcs p q r' by funext t; simp only [upd_apply, pcs]; (repeat' split) <;> simp_all] at this

theorem push_runs' {v : Nat} (hp : s.pushB ⟨M, fixed⟩ false v = some (s', .pushed true)) :
    ∃ k, k ≤ 10 ∧ Runs ⟨M, fixed⟩ 0 k s .idle [.inv 0 (.push false v), .res 0 (.pushed true)] s' .idle := by
  obtain ⟨k, hk, h⟩ := push_runs hp 0; exact ⟨k, by omega, h⟩

end

/-- The first half of a pop by a thread alone, up to its compare-exchange. -/
theorem pop_reads {cfg : Cfg} {t n : Nat} {s : St α} (hn : s.tos.ptr = some n) :
    Runs cfg t 3 s .idle [.inv t (.pop false)] s (.pcas false s.tosSnap (s.heap.next n).ptr) := by
  refine .call (o := .pop false) rfl (by simp) (.step (s' := s) (p' := .ptest false s.tosSnap) rfl (fun _ _ => trivial)
    (.step (s' := s) ?_ (fun _ _ => trivial) (.nil _ _)))
  simp [tstep, St.tosSnap, hn]

/-- The compare-exchange and the read of the element. -/
theorem pop_takes {cfg : Cfg} {t n : Nat} {s : St α} {v} (hn : s.tos.ptr = some n) (hv : s.heap.data n = some v) :
    Runs cfg t 2 s (.pcas false s.tosSnap (s.heap.next n).ptr) []
      { s with tos := ⟨(s.heap.next n).ptr, cfg.nextTag s.tos.tag⟩, tosVer := s.tosVer + 1 } (.pdestroy n v) := by
  refine .step (s' := { s with tos := ⟨(s.heap.next n).ptr, cfg.nextTag s.tos.tag⟩, tosVer := s.tosVer + 1 })
    (p' := .papply false n) ?_ (fun _ _ => fresh_lt _ _) (.step
    (s' := { s with tos := ⟨(s.heap.next n).ptr, cfg.nextTag s.tos.tag⟩, tosVer := s.tosVer + 1 }) ?_ (fun _ _ => trivial) (.nil _ _))
  · simp [tstep, St.tosSnap, hn]
  · simp [tstep, hv]

/-- The end of a pop, from the destruction of the payload on. -/
theorem pop_ends {cfg : Cfg} {t n : Nat} {s : St α} {v w} (hv : s.heap.data n = some w) :
    Runs cfg t (3 + 1 + 1) s (.pdestroy n v) [.res t (.popped (some v))]
      { s with heap := (s.heap.setData n none).deallocUnsafe n } .idle := by
  refine .step (s' := { s with heap := s.heap.setData n none }) (p' := .free (.pop v) n .load) ?_ (fun _ _ => trivial)
    ((free_runs (t := t) (cfg := cfg) (s := { s with heap := s.heap.setData n none })).trans Runs.ret)
  simp [tstep, hv]

/-- A pop and a push of the value 0 by thread 0. -/
def cycle : History (Op Nat) (Ret Nat) :=
  [.inv 0 (.pop false), .res 0 (.popped (some 0)), .inv 0 (.push false 0), .res 0 (.pushed true)]

/-- `k` times. -/
def cycles : Nat → History (Op Nat) (Ret Nat)
  | 0 => []
  | k + 1 => cycles k ++ cycle

/-- History before the cycles: two pushes; thread 1 calls `pop` (and is stopped before its compare-exchange); both elements
are popped; thread 2 calls `push` with the value 1 (and is stopped before linking its node); another push. -/
def before : History (Op Nat) (Ret Nat) :=
  [.inv 0 (.push false 0), .res 0 (.pushed true), .inv 0 (.push false 0), .res 0 (.pushed true),
   .inv 1 (.pop false), .inv 0 (.pop false), .res 0 (.popped (some 0)), .inv 0 (.pop false), .res 0 (.popped (some 0)),
   .inv 2 (.push false 1), .inv 0 (.push false 0), .res 0 (.pushed true)]

/-- History after the cycles: the compare-exchange of thread 1 succeeds, although the stack has changed; thread 3 pops the node
that thread 2 is about to push; thread 2 pushes it; thread 0 pops it and pushes another element; thread 3 returns. -/
def after : History (Op Nat) (Ret Nat) :=
  [.res 1 (.popped (some 0)), .inv 3 (.pop false), .res 2 (.pushed true), .inv 0 (.pop false), .res 0 (.popped (some 1)),
   .inv 0 (.push false 0), .res 0 (.pushed true), .res 3 (.popped (some 1))]

theorem cycles_exec {M : Nat} {fixed : Bool} {h : History (Op Nat) (Ret Nat)} {p q r : PC Nat}
    (hx : AbaExec M fixed h ⟨two M none (some 0) (some 0) (some 1) none 4 (some 0) 2, pcs p q r⟩) (k : Nat) :
    AbaExec M fixed (h ++ cycles k) ⟨two M none (some 0) (some 0) (some 1) none (4 + k) (some 0) (2 + k), pcs p q r⟩ := by
  induction k with
  | zero => simpa [cycles] using hx
  | succ k ih =>
    have h1 := (ih.t0 (pop_runs (pop0 0) 0)).t0 (push_runs' (push0 0))
    simpa [cycles, cycle, Nat.add_assoc] using h1

/-- The compare-exchange of thread 1 succeeds after `M` increments of the tag. -/
theorem AbaExec.wrapped {M pv : Nat} {fixed : Bool} {h : History (Op Nat) (Ret Nat)} {q r : PC Nat}
    {a b d0 d1 pp : Option Nat}
    (hx : AbaExec M fixed h ⟨two M a b d0 d1 pp pv (some 0) M, pcs (.pcas false ⟨⟨some 0, 0 % M⟩, 0⟩ (some 1)) q r⟩) :
    AbaExec M fixed h ⟨two M a b d0 d1 pp pv (some 1) (M + 1), pcs (.papply false 0) q r⟩ := by
  have := MSteps.step (t := 1) (ch := .go) (e := none) hx
    (s' := two M a b d0 d1 pp pv (some 1) (M + 1)) (p' := .papply false 0)
    (by simp [mach, tstep, pcs, two, Cfg.nextTag]) ⟨by simp [pcs, fresh, two], by simp⟩
  rw [show upd (pcs (.pcas false ⟨⟨some 0, 0 % M⟩, 0⟩ (some 1)) q r) 1 (.papply false 0) = pcs (.papply false 0) q r by
    funext t; simp only [upd_apply, pcs]; (repeat' split) <;> simp_all] at this
  simpa using this

theorem offered_cycles (k : Nat) : (offered (cycles k)).count 1 = 0 := by
  induction k with
  | zero => rfl
  | succ k ih => rw [cycles, offered_append, List.count_append, ih]; rfl

theorem aba_exec {M : Nat} (hM : 2 ≤ M) (fixed : Bool) : ∃ s,
    AbaExec M fixed (before ++ cycles (M - 2) ++ after) ⟨s, fun _ => .idle⟩ := by
  have hid : pcs .idle .idle .idle = fun _ => .idle := by funext t; simp only [pcs]; (repeat' split) <;> rfl
  have h0 : AbaExec M fixed [] ⟨two M none (some 0) none none (some 1) 0 none 0, pcs .idle .idle .idle⟩ := by
    rw [hid, ← two_initial]; exact .refl _
  -- two pushes
  have h1 := (h0.t0 (push_runs' (push1 0))).t0 (push_runs' (push0 0))
  -- thread 1 reads the top element and its successor
  have h2 := h1.t1 (pop_reads rfl)
  -- two pops
  have h3 := (h2.t0 (pop_runs (pop0 0) 0)).t0 (pop_runs (pop1 0) 0)
  -- thread 2 starts to push the value 1
  obtain ⟨j, _, hc⟩ := construct_runs (t := 2) (b := false) (v := 1) (cfg := ⟨M, fixed⟩)
    (s := two M none (some 0) none none (some 1) 2 none 2)
    (s' := two M none (some 0) none (some 1) (some 0) 3 none 2) (x := some 1) (by
      have := data1 (M := M) (a := none) (b := some 0) (d0 := none) (d1 := none) (pp := some 0) (pv := 3) (tp := none) (tv := 2) (some 1)
      simp only [St.constructU, Heap.allocUnsafe]
      simp only [two, nextTag_mod] at this ⊢
      simpa using this) (.one 1) rfl
  have h4 := h3.t2 (.call (o := .push false 1) rfl (by simp) hc)
  -- another push, and the cycles
  have h5 := cycles_exec (h4.t0 (push_runs' (push0 0))) (M - 2)
  have hM2 : 2 + (M - 2) = M := by omega
  rw [hM2] at h5
  generalize 4 + (M - 2) = pv at h5
  -- the compare-exchange of thread 1
  have h6 := h5.wrapped
  -- thread 1 returns
  have h7 := h6.t1 (s' := two M none (some 0) none (some 1) (some 0) pv (some 1) (M + 1)) (p' := .idle)
    (.step (p' := .pdestroy 0 0) rfl (fun _ _ => trivial) (by
      have := pop_ends (cfg := ⟨M, fixed⟩) (t := 1) (n := 0) (v := 0) (w := 0)
        (s := two M none (some 0) (some 0) (some 1) none pv (some 1) (M + 1)) rfl
      rw [data0, free0] at this; exact this))
  -- thread 3 pops the node of thread 2
  have h8 := h7.t3 (s' := two M none (some 0) none (some 1) (some 0) pv (some 0) (M + 2)) (r' := .pdestroy 1 1) (by
    have := (pop_reads (cfg := ⟨M, fixed⟩) (t := 3) (n := 1) (s := two M none (some 0) none (some 1) (some 0) pv (some 1) (M + 1)) rfl).trans
      (pop_takes (v := 1) rfl rfl)
    simp only [two, nextTag_mod] at this ⊢
    exact this)
  -- thread 2 pushes its node
  have h9 := h8.t2 (q' := .idle) ((link_runs (t := 2)).trans Runs.ret)
  have h9' : (two M none (some 0) none (some 1) (some 0) pv (some 0) (M + 2)).linkU 1 1 =
      two M none (some 0) none (some 1) (some 0) pv (some 1) (M + 2) := by
    simp only [St.linkU, two, Heap.setNextPtr]
    congr 2
    funext n; simp only [upd_apply]; (repeat' split) <;> simp_all
  rw [h9'] at h9
  -- thread 0 pops it and pushes another element
  have h10 := (h9.t0 (pop_runs (pop1 1) 0)).t0 (push_runs' (push1 0))
  -- thread 3 returns
  have h11 := h10.t3 (r' := .idle) (s' := two M none (some 0) none none (some 1) (pv + 1) (some 1) (M + 2 + 1)) (by
    have := pop_ends (cfg := ⟨M, fixed⟩) (t := 3) (n := 1) (v := 1) (w := 0)
      (s := two M none (some 0) none (some 0) (some 0) (pv + 1) (some 1) (M + 2 + 1)) rfl
    rw [data1, free1] at this; exact this)
  rw [hid] at h11
  exact ⟨two M none (some 0) none none (some 1) (pv + 1) (some 1) (M + 2 + 1), by simpa [before, after] using h11⟩

/-- **C21.** Whatever the number `M ≥ 2` of tag values: there is an execution in which at most `M` tag increments of any word
happen between a load and the corresponding compare-exchange (with at most `M - 1` of them every history is linearizable,
`stack_linearizable`), all calls return, and a value pushed once is handed out by two pops. Hence the history is not
linearizable. -/
theorem stack_aba_witness {M : Nat} (hM : 2 ≤ M) (fixed : Bool) :
    ∃ (h : History (Op Nat) (Ret Nat)) (C : Conf Nat) (v : Nat), AbaExec M fixed h C ∧ (∀ t, C.pc t = .idle) ∧
      (offered h).count v = 1 ∧ 2 ≤ (delivered h).count v ∧ ¬ Linearizable (spec Nat fixed) h := by
  obtain ⟨s, hx⟩ := aba_exec hM fixed
  have h1 : (offered (before ++ cycles (M - 2) ++ after)).count 1 = 1 := by
    simp only [offered_append, List.count_append, offered_cycles]; rfl
  have h2 : 2 ≤ (delivered (before ++ cycles (M - 2) ++ after)).count 1 := by
    refine two_delivered (i := (before ++ cycles (M - 2)).length + 1) (j := (before ++ cycles (M - 2)).length + 3) (by omega) ?_ ?_
    · rw [outcome_append]; rfl
    · rw [outcome_append]; rfl
  refine ⟨_, _, 1, hx, fun _ => rfl, h1, h2, fun hl => ?_⟩
  have := (Linearizable.delivers_only_offered hl).count_le 1
  omega

end Verif.Stack
