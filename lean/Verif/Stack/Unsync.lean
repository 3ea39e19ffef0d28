import Verif.Alone
import Verif.Stack.Pool

/-!
# Model of the unsynchronized operations of `include/boost/lockfree/stack.hpp`, and C24

`unsynchronized_push`, `unsynchronized_push(begin, end)`, `unsynchronized_pop` are functions of the shared state,
since the caller guarantees that no other thread is active. A result of type `Res` is the new state and the outcome;
`none` is undefined behaviour (use of a payload outside its lifetime; `*begin` of an empty range).
Exceptions are left out here: the allocator and the copy constructor do not throw.
-/

namespace Verif.Stack
open Lin

variable {α : Type}

/-- `construct<false, Bounded>` (freelist.hpp:86-93, 450-460 with 198-217, 562-577): allocate and construct.
`none`: there is a live object in the node already. -/
def St.constructU (cfg : Cfg) (b : Bool) (s : St α) (v : α) : Option (St α × Option Nat) :=
  match s.heap.allocUnsafe cfg b with
  | (h, none) => some ({ s with heap := h }, none)
  | (h, some n) => if (h.data n).isSome then none else some ({ s with heap := h.setData n (some v) }, some n)

/-- `link_nodes_unsafe` (stack.hpp:274-282). -/
def St.linkU (s : St α) (top e : Nat) : St α :=
  { s with heap := s.heap.setNextPtr e s.tos.ptr, tos := ⟨some top, s.tos.tag⟩ }

/-- The body of `unsynchronized_push` (stack.hpp:417-425), for both values of `Bounded`. -/
def St.pushB (cfg : Cfg) (b : Bool) (s : St α) (v : α) : Option (St α × Ret α) :=
  match s.constructU cfg b v with
  | none => none
  | some (s, none) => some (s, .pushed false)
  | some (s, some n) => some (s.linkU n n, .pushed true)

/-- `unsynchronized_push` (stack.hpp:417-425). -/
def St.pushU (cfg : Cfg) (s : St α) (v : α) : Option (St α × Ret α) := s.pushB cfg false v

/-- The loop of `prepare_node_list` (stack.hpp:300-306) with `new_top_node = top` after `acc` elements. -/
def St.prepLoopU (cfg : Cfg) (s : St α) (top k : Nat) : List α → Option (St α × Nat × Nat)
  | [] => some (s, top, k)
  | v :: vs =>
    match s.constructU cfg false v with
    | none => none
    | some (s, none) => some (s, top, k)
    | some (s, some n) => St.prepLoopU cfg { s with heap := s.heap.setNextPtr n (some top) } n (k + 1) vs

/-- `unsynchronized_push(begin, end)` (stack.hpp:435-446 with `prepare_node_list` 284-321). -/
def St.pushRangeU (cfg : Cfg) (s : St α) : List α → Option (St α × Ret α)
  | [] => none
  | v :: vs =>
    match s.constructU cfg false v with
    | none => none
    | some (s, none) => some (s, .count 0)
    | some (s, some e) =>
      match St.prepLoopU cfg { s with heap := s.heap.setNextPtr e none } e 1 vs with
      | none => none
      | some (s, top, k) => some (s.linkU top e, .count k)

/-- `unsynchronized_pop` (stack.hpp:503-520). -/
def St.popU (cfg : Cfg) (s : St α) : Option (St α × Ret α) :=
  match s.tos.ptr with
  | none => some (s, .popped none)
  | some n =>
    match s.heap.data n with
    | none => none
    | some v =>
      some ({ heap := (s.heap.setData n none).deallocUnsafe n,
              tos := ⟨(s.heap.next n).ptr, cfg.nextTag s.tos.tag⟩, tosVer := s.tosVer + 1 }, .popped (some v))

/-- `reserve_unsafe` (stack.hpp:236-242, freelist.hpp:67-75). -/
def St.reserveU (s : St α) (k : Nat) : St α := { s with heap := s.heap.addNodes k }

/-- The unsynchronized operation that corresponds to a thread-safe one. -/
def St.unsync (cfg : Cfg) (s : St α) : Op α → Option (St α × Ret α)
  | .push false v => s.pushU cfg v
  | .pushRange false vs => if cfg.fixed then none else s.pushRangeU cfg vs
  | .pop false => s.popU cfg
  | .reserve k => if cfg.fixed then none else some (s.reserveU k, .reserved)
  | _ => none

/-- The calls for which there is an unsynchronized version, with their preconditions: ranges are not empty; range push and
`reserve` are for node-based stacks. -/
def HasUnsync (cfg : Cfg) : Op α → Prop
  | .push b _ => b = false
  | .pushRange b vs => b = false ∧ vs ≠ [] ∧ cfg.fixed = false
  | .pop thr => thr = false
  | .reserve _ => cfg.fixed = false
  | _ => False

/-! ### The thread-safe operations, run by one thread alone -/

/-- Steps of a thread running alone: no exception, no spurious failure, and snapshots are up to date. -/
def okNow (s : St α) (p : PC α) (ch : Choice (Op α)) : Prop :=
  (∀ M f, okFresh ⟨M, f⟩ s p ch) ∧ (ch = .go ∨ ∃ o, ch = .call o)

theorem okNow.fresh {cfg : Cfg} {s : St α} {p ch} (h : okNow s p ch) : okFresh cfg s p ch := h.1 cfg.M cfg.fixed

abbrev Runs (cfg : Cfg) (t k : Nat) (s : St α) (p : PC α) (h : History (Op α) (Ret α)) (s' : St α) (p' : PC α) : Prop :=
  Alone (mach α cfg) okNow t k s p h s' p'

theorem fresh_lt (M v : Nat) : M = 0 ∨ v < v + M := by omega

theorem Runs.step {cfg : Cfg} {t k : Nat} {s s' s'' : St α} {p p' p'' : PC α} {h}
    (hs : tstep cfg t s p .go = some (s', p', none)) (hf : ∀ M f, fresh ⟨M, f⟩ s p)
    (hx : Runs cfg t k s' p' h s'' p'') : Runs cfg t (k + 1) s p h s'' p'' := by
  have := Alone.cons (m := mach α cfg) (ok := okNow) (ch := .go) (e := none) hs ⟨fun M f => ⟨hf M f, by simp⟩, .inl rfl⟩ hx
  simpa using this

theorem Runs.ret {cfg : Cfg} {t : Nat} {s : St α} {r} : Runs cfg t 1 s (.ret r) [.res t r] s .idle := by
  have := Alone.cons (m := mach α cfg) (ok := okNow) (t := t) (s := s) (p := .ret r) (ch := .go) (e := some (.res t r)) rfl
    ⟨fun M f => ⟨trivial, by simp⟩, .inl rfl⟩ (.nil _ _)
  simpa using this

/-- Where `construct` goes on after `allocate`. -/
def onAlloc (b : Bool) (k : PushK α) : Option Nat → PC α
  | none => onNull k
  | some n => .constr b k n

/-- Allocation by a thread running alone. -/
theorem alloc_runs {cfg : Cfg} {t : Nat} {s : St α} {b k h r} (ha : s.heap.allocUnsafe cfg b = (h, r)) :
    ∃ j, j ≤ 3 ∧ Runs cfg t j s (.alloc b k .load) [] { s with heap := h }
      (onAlloc b k r) := by
  unfold Heap.allocUnsafe at ha
  have h1 : tstep cfg t s (.alloc b k .load) .go = some (s, .alloc b k (.test s.heap.poolSnap), none) := rfl
  split at ha
  · rename_i hp
    split at ha
    · rename_i hb
      cases ha
      refine ⟨2, by omega, .step h1 (fun _ _ => trivial) (.step ?_ (fun _ _ => trivial) (.nil _ _))⟩
      simp [tstep, aStep, Heap.poolSnap, hp, hb, onAlloc]
    · rename_i hb
      cases ha
      refine ⟨2, by omega, .step h1 (fun _ _ => trivial) (.step ?_ (fun _ _ => trivial) (.nil _ _))⟩
      simp [tstep, aStep, Heap.poolSnap, hp, hb, onAlloc]
  · rename_i n hp
    cases ha
    refine ⟨3, by omega, .step h1 (fun _ _ => trivial) (.step (p' := .alloc b k (.cas s.heap.poolSnap (s.heap.next n).ptr)) (s' := s) ?_
      (fun _ _ => trivial) (.step ?_ (fun _ _ => fresh_lt _ _) (.nil _ _)))⟩
    · simp [tstep, aStep, Heap.poolSnap, hp]
    · simp [tstep, aStep, Heap.poolSnap, hp, onAlloc]

theorem free_runs {cfg : Cfg} {t : Nat} {s : St α} {k n} :
    Runs cfg t 3 s (.free k n .load) [] { s with heap := s.heap.deallocUnsafe n } (onFreed k) := by
  refine .step (s' := s) (p' := .free k n (.set s.heap.poolSnap)) rfl (fun _ _ => trivial)
    (.step (s' := { s with heap := s.heap.setNextPtr n s.heap.pool.ptr }) (p' := .free k n (.cas s.heap.poolSnap)) rfl
      (fun _ _ => trivial) (.step ?_ (fun _ _ => trivial) (.nil _ _)))
  simp [tstep, dStep, Heap.poolSnap, Heap.setNextPtr, Heap.deallocUnsafe]

theorem link_runs {cfg : Cfg} {t : Nat} {s : St α} {top e r} :
    Runs cfg t 3 s (.lload top e r) [] (s.linkU top e) (.ret r) := by
  refine .step (s' := s) (p' := .lset top e s.tosSnap r) rfl (fun _ _ => trivial)
    (.step (s' := { s with heap := s.heap.setNextPtr e s.tos.ptr }) (p' := .lcas top e s.tosSnap r) rfl
      (fun _ _ => trivial) (.step ?_ (fun _ _ => trivial) (.nil _ _)))
  simp [tstep, St.tosSnap, Heap.setNextPtr, St.linkU]

/-- Calling. -/
theorem Runs.call {cfg : Cfg} {t k : Nat} {s s'' : St α} {o p' p'' h} (ho : start cfg o = some p')
    (hne : ∀ b, o ≠ .pushRange b []) (hx : Runs cfg t k s p' h s'' p'') :
    Runs cfg t (k + 1) s .idle (.inv t o :: h) s'' p'' := by
  have := Alone.cons (m := mach α cfg) (ok := okNow) (t := t) (s := s) (p := .idle) (ch := .call o) (p' := p') (s' := s)
    (e := some (.inv t o)) (by simp [mach, tstep, ho]) ⟨fun M f => ⟨trivial, by simpa using hne⟩, .inr ⟨o, rfl⟩⟩ hx
  simpa using this

/-- Where the callers of `construct` go on. -/
def onConstr (b : Bool) (k : PushK α) : Option Nat → PC α
  | none => onNull k
  | some n => match k with
    | .one _ => .lload n n (.pushed true)
    | .range acc te v rest => .rlink b acc te v rest n

/-- `construct` by a thread running alone. -/
theorem construct_runs {cfg : Cfg} {t : Nat} {s s' : St α} {b v x} (hc : s.constructU cfg b v = some (s', x)) (k : PushK α)
    (hk : k.val = v) :
    ∃ j, j ≤ 4 ∧ Runs cfg t j s (.alloc b k .load) [] s' (onConstr b k x) := by
  unfold St.constructU at hc
  cases ha : s.heap.allocUnsafe cfg b with
  | mk h x =>
    obtain ⟨j, hj, h1⟩ := alloc_runs (t := t) (s := s) (k := k) ha
    rw [ha] at hc
    cases x with
    | none => cases hc; exact ⟨j, by omega, h1⟩
    | some n =>
      simp only at hc
      split at hc
      · simp at hc
      · rename_i hd
        cases hc
        have h2 := h1.trans (Runs.step (t := t) (cfg := cfg) (s := { s with heap := h }) (p := .constr b k n)
          (s' := { s with heap := h.setData n (some v) }) (p' := onConstr b k (some n))
          (by subst hk; cases k <;> simp_all [tstep, PushK.val, onConstr]) (fun _ _ => trivial) (.nil _ _))
        exact ⟨j + 1, by omega, h2⟩

/-- A push by a thread running alone does what `unsynchronized_push` does. -/
theorem push_runs {cfg : Cfg} {s s' : St α} {b v r} (hp : s.pushB cfg b v = some (s', r)) (t : Nat) :
    ∃ k, k ≤ 9 ∧ Runs cfg t k s .idle [.inv t (.push b v), .res t r] s' .idle := by
  unfold St.pushB at hp
  cases hc : s.constructU cfg b v with
  | none => rw [hc] at hp; simp at hp
  | some y =>
    obtain ⟨s₁, x⟩ := y
    rw [hc] at hp
    obtain ⟨j, hj, h1⟩ := construct_runs (t := t) hc (.one v) rfl
    cases x with
    | none =>
      cases hp
      exact ⟨j + 1 + 1, by omega, .call rfl (by simp) (h1.trans Runs.ret)⟩
    | some n =>
      cases hp
      exact ⟨j + (3 + 1) + 1, by omega, .call rfl (by simp) (h1.trans ((link_runs (t := t)).trans Runs.ret))⟩

/-- A pop by a thread running alone does what `unsynchronized_pop` does. -/
theorem pop_runs {cfg : Cfg} {s s' : St α} {r} (hp : s.popU cfg = some (s', r)) (t : Nat) :
    ∃ k, k ≤ 10 ∧ Runs cfg t k s .idle [.inv t (.pop false), .res t r] s' .idle := by
  unfold St.popU at hp
  have h1 : tstep cfg t s (.pload false) .go = some (s, .ptest false s.tosSnap, none) := rfl
  split at hp
  · rename_i hn
    cases hp
    refine ⟨4, by omega, .call rfl (by simp) (.step h1 (fun _ _ => trivial) (.step ?_ (fun _ _ => trivial) Runs.ret))⟩
    simp [tstep, St.tosSnap, hn]
  · rename_i n hn
    split at hp
    · simp at hp
    · rename_i v hv
      cases hp
      refine ⟨3 + 1 + 5 + 1, by omega, .call rfl (by simp) (.step h1 (fun _ _ => trivial) (.step (s' := s)
        (p' := .pcas false s.tosSnap (s.heap.next n).ptr) ?_ (fun _ _ => trivial) (.step
        (s' := { s with tos := ⟨(s.heap.next n).ptr, cfg.nextTag s.tos.tag⟩, tosVer := s.tosVer + 1 })
        (p' := .papply false n) ?_ (fun _ _ => fresh_lt _ _) (.step (s' := { s with tos := ⟨(s.heap.next n).ptr, cfg.nextTag s.tos.tag⟩, tosVer := s.tosVer + 1 })
        (p' := .pdestroy n v) ?_ (fun _ _ => trivial) (.step (s' := { heap := s.heap.setData n none, tos := ⟨(s.heap.next n).ptr, cfg.nextTag s.tos.tag⟩, tosVer := s.tosVer + 1 })
        (p' := .free (.pop v) n .load) ?_ (fun _ _ => trivial) ((free_runs (t := t) (cfg := cfg)).trans Runs.ret))))))⟩
      · simp [tstep, St.tosSnap, hn]
      · simp [tstep, St.tosSnap, hn]
      · simp [tstep, hv]
      · simp [tstep, hv]

theorem prepLoop_runs {cfg : Cfg} {t : Nat} {vs : List α} : ∀ {s s' : St α} {acc top e top' k},
    s.prepLoopU cfg top acc.length vs = some (s', top', k) →
    ∃ j, j ≤ 5 * vs.length ∧ Runs cfg t j s (onLinked false acc top e vs) [] s' (.lload top' e (.count k)) := by
  induction vs with
  | nil => intro s s' acc top e top' k hp; cases hp; exact ⟨0, by simp, .nil _ _⟩
  | cons v vs ih =>
    intro s s' acc top e top' k hp
    unfold St.prepLoopU at hp
    cases hc : s.constructU cfg false v with
    | none => rw [hc] at hp; simp at hp
    | some y =>
      obtain ⟨s₁, x⟩ := y
      rw [hc] at hp
      obtain ⟨j, hj, h1⟩ := construct_runs (t := t) hc (.range acc (some (top, e)) v vs) rfl
      cases x with
      | none => cases hp; exact ⟨j, by simp; omega, h1⟩
      | some n =>
        simp only at hp
        obtain ⟨j', hj', h2⟩ := ih (acc := acc ++ [v]) (top := n) (e := e) (by simpa using hp)
        refine ⟨j + (j' + 1), by simp; omega, ?_⟩
        have h3 := h1.trans (Runs.step (t := t) (cfg := cfg) (s := s₁) (p := .rlink false acc (some (top, e)) v vs n)
          (p' := onLinked false (acc ++ [v]) n e vs) (by rfl) (fun _ _ => trivial) h2)
        exact h3

/-- A range push by a thread running alone does what `unsynchronized_push(begin, end)` does. -/
theorem pushRange_runs {cfg : Cfg} {s s' : St α} {vs r} (hf : cfg.fixed = false) (hp : s.pushRangeU cfg vs = some (s', r)) (t : Nat) :
    ∃ k, k ≤ 5 * vs.length + 5 ∧ Runs cfg t k s .idle [.inv t (.pushRange false vs), .res t r] s' .idle := by
  cases vs with
  | nil => simp [St.pushRangeU] at hp
  | cons v vs =>
    simp only [St.pushRangeU] at hp
    cases hc : s.constructU cfg false v with
    | none => rw [hc] at hp; simp at hp
    | some y =>
      obtain ⟨s₁, x⟩ := y
      rw [hc] at hp
      obtain ⟨j, hj, h1⟩ := construct_runs (t := t) hc (.range [] none v vs) rfl
      have hst : start cfg (.pushRange false (v :: vs)) = some (.alloc false (.range [] none v vs) .load) := by
        simp [start, hf]
      cases x with
      | none =>
        cases hp
        exact ⟨j + 1 + 1, by simp; omega, .call hst (by simp) (h1.trans Runs.ret)⟩
      | some e =>
        simp only at hp
        split at hp
        · simp at hp
        · rename_i s₂ top k hl
          cases hp
          obtain ⟨j', hj', h2⟩ := prepLoop_runs (t := t) (acc := [v]) (e := e) hl
          have h3 := h1.trans (Runs.step (t := t) (cfg := cfg) (s := s₁) (p := .rlink false [] none v vs e)
            (p' := onLinked false [v] e e vs) (by rfl) (fun _ _ => trivial) h2)
          exact ⟨_, by simp; omega, .call hst (by simp) (h3.trans ((link_runs (t := t)).trans Runs.ret))⟩

theorem rsv_runs {cfg : Cfg} {t k : Nat} : ∀ {s : St α},
    ∃ j, j ≤ 4 * k + 1 ∧ Runs cfg t j s (.rsv k) [] (s.reserveU k) (.ret .reserved) := by
  induction k with
  | zero => intro s; exact ⟨1, by omega, .step rfl (fun _ _ => trivial) (.nil _ _)⟩
  | succ k ih =>
    intro s
    obtain ⟨j, hj, h1⟩ := ih (s := { s with heap := s.heap.malloc.deallocUnsafe s.heap.nalloc })
    refine ⟨3 + j + 1, by omega, ?_⟩
    have h2 := (free_runs (t := t) (cfg := cfg) (s := { s with heap := s.heap.malloc }) (k := .rsv k)
      (n := s.heap.nalloc)).trans h1
    have h3 : Runs cfg t (3 + j + 1) s (.rsv (k + 1)) [] _ _ := .step rfl (fun _ _ => trivial) h2
    simpa [St.reserveU, Heap.addNodes_front] using h3

/-- **C24.** A thread-safe call made by one thread alone, without spurious failures, ends with the same state and result as
the unsynchronized version, after a bounded number of steps. This holds from every state, reachable or not. -/
theorem unsync_runs {cfg : Cfg} {s s' : St α} {o r} (hu : s.unsync cfg o = some (s', r)) (t : Nat) :
    ∃ k, Runs cfg t k s .idle [.inv t o, .res t r] s' .idle := by
  unfold St.unsync at hu
  split at hu
  · obtain ⟨k, _, h⟩ := push_runs hu t; exact ⟨k, h⟩
  · split at hu
    · simp at hu
    · rename_i hf
      obtain ⟨k, _, h⟩ := pushRange_runs (by simpa using hf) hu t; exact ⟨k, h⟩
  · obtain ⟨k, _, h⟩ := pop_runs hu t; exact ⟨k, h⟩
  · split at hu
    · simp at hu
    · rename_i k hf
      cases hu
      obtain ⟨j, _, h⟩ := rsv_runs (t := t) (cfg := cfg) (s := s) (k := k)
      exact ⟨_, .call (by simp [start, hf]) (by simp) (h.trans Runs.ret)⟩
  · simp at hu

/-! If an unsynchronized operation were to run into undefined behaviour, so would the thread-safe one. -/

theorem construct_err {cfg : Cfg} {t : Nat} {s : St α} {b v} (hc : s.constructU cfg b v = none) (k : PushK α) :
    ∃ j s', Runs cfg t j s (.alloc b k .load) [] s' .err := by
  unfold St.constructU at hc
  cases ha : s.heap.allocUnsafe cfg b with
  | mk h x =>
    obtain ⟨j, hj, h1⟩ := alloc_runs (t := t) (s := s) (k := k) ha
    rw [ha] at hc
    cases x with
    | none => simp at hc
    | some n =>
      simp only at hc
      split at hc
      · rename_i hd
        exact ⟨_, { s with heap := h }, h1.trans (Runs.step (t := t) (cfg := cfg) (p := .constr b k n) (p' := .err)
          (by simp [tstep, hd]) (fun _ _ => trivial) (.nil _ _))⟩
      · simp at hc

theorem prepLoop_err {cfg : Cfg} {t : Nat} {vs : List α} : ∀ {s : St α} {acc top e},
    s.prepLoopU cfg top acc.length vs = none →
    ∃ j s', Runs cfg t j s (onLinked false acc top e vs) [] s' .err := by
  induction vs with
  | nil => intro s acc top e hp; simp [St.prepLoopU] at hp
  | cons v vs ih =>
    intro s acc top e hp
    unfold St.prepLoopU at hp
    cases hc : s.constructU cfg false v with
    | none => exact construct_err hc _
    | some y =>
      obtain ⟨s₁, x⟩ := y
      rw [hc] at hp
      obtain ⟨j, hj, h1⟩ := construct_runs (t := t) hc (.range acc (some (top, e)) v vs) rfl
      cases x with
      | none => simp at hp
      | some n =>
        simp only at hp
        obtain ⟨j', s', h2⟩ := ih (acc := acc ++ [v]) (top := n) (e := e) (by simpa using hp)
        exact ⟨_, s', h1.trans (Runs.step (t := t) (cfg := cfg) (s := s₁) (p := .rlink false acc (some (top, e)) v vs n)
          (p' := onLinked false (acc ++ [v]) n e vs) (by rfl) (fun _ _ => trivial) h2)⟩

theorem unsync_err {cfg : Cfg} {s : St α} {o} (ho : HasUnsync cfg o) (hu : s.unsync cfg o = none) (t : Nat) :
    ∃ k s', Runs cfg t k s .idle [.inv t o] s' .err := by
  unfold St.unsync at hu
  split at hu
  · rename_i v
    unfold St.pushU St.pushB at hu
    cases hc : s.constructU cfg false v with
    | none =>
      obtain ⟨k, s', h⟩ := construct_err (t := t) hc (.one v)
      exact ⟨_, s', .call rfl (by simp) h⟩
    | some y => obtain ⟨s₁, x⟩ := y; rw [hc] at hu; cases x <;> simp at hu
  · rename_i vs
    obtain ⟨_, h1, h2⟩ := ho
    rw [if_neg (by simp [h2])] at hu
    cases vs with
    | nil => exact absurd rfl h1
    | cons v vs =>
      simp only [St.pushRangeU] at hu
      have hst : start cfg (.pushRange false (v :: vs)) = some (.alloc false (.range [] none v vs) .load) := by
        simp [start, h2]
      cases hc : s.constructU cfg false v with
      | none =>
        obtain ⟨k, s', h⟩ := construct_err (t := t) hc (.range [] none v vs)
        exact ⟨_, s', .call hst (by simp) h⟩
      | some y =>
        obtain ⟨s₁, x⟩ := y
        rw [hc] at hu
        obtain ⟨j, hj, h3⟩ := construct_runs (t := t) hc (.range [] none v vs) rfl
        cases x with
        | none => simp at hu
        | some e =>
          simp only at hu
          split at hu
          · rename_i hl
            obtain ⟨j', s', h4⟩ := prepLoop_err (t := t) (acc := [v]) (e := e) hl
            exact ⟨_, s', .call hst (by simp) (h3.trans (Runs.step (t := t) (cfg := cfg) (s := s₁)
              (p := .rlink false [] none v vs e) (p' := onLinked false [v] e e vs) (by rfl) (fun _ _ => trivial) h4))⟩
          · simp at hu
  · unfold St.popU at hu
    split at hu
    · simp at hu
    · rename_i n hn
      split at hu
      · rename_i hd
        refine ⟨_, _, .call rfl (by simp) (.step (s' := s) (p' := .ptest false s.tosSnap) rfl (fun _ _ => trivial)
          (.step (s' := s) (p' := .pcas false s.tosSnap (s.heap.next n).ptr) ?_ (fun _ _ => trivial) (.step
          (s' := { s with tos := ⟨(s.heap.next n).ptr, cfg.nextTag s.tos.tag⟩, tosVer := s.tosVer + 1 })
          (p' := .papply false n) ?_ (fun _ _ => fresh_lt _ _) (.step
          (s' := { s with tos := ⟨(s.heap.next n).ptr, cfg.nextTag s.tos.tag⟩, tosVer := s.tosVer + 1 })
          (p' := .err) ?_ (fun _ _ => trivial) (.nil _ _)))))⟩
        · simp [tstep, St.tosSnap, hn]
        · simp [tstep, St.tosSnap, hn]
        · simp [tstep, hd]
      · simp at hu
  · simp [show cfg.fixed = false from ho] at hu
  · rename_i h1 h2 h3 h4
    cases o with
    | push b v => cases b <;> simp_all [HasUnsync]
    | pushRange b v => cases b <;> simp_all [HasUnsync]
    | pop b => cases b <;> simp_all [HasUnsync]
    | _ => simp_all [HasUnsync]

/-! ### C24 -/

variable {cfg : Cfg} {n : Nat} {h : History (Op α) (Ret α)} {C : Conf α}

theorem Runs.exec {t k : Nat} {s' : St α} {h' p p'} (hx : FreshExec cfg n h C) (hp : C.pc t = p)
    (hr : Runs cfg t k C.s p h' s' p') : FreshExec cfg n (h ++ h') ⟨s', upd C.pc t p'⟩ :=
  hx.trans ((hr.mono fun _ _ _ h => h.fresh).steps rfl hp)

/-- Executions in which, at moments when no thread-safe call is in progress, unsynchronized operations are called too. Such a
call is recorded in the history under the name of its thread-safe version. -/
inductive MixedExec (cfg : Cfg) (n : Nat) : History (Op α) (Ret α) → Conf α → Prop where
  | init : MixedExec cfg n [] (Conf.initial n)
  | step {h C t ch s' p' e} : MixedExec cfg n h C → tstep cfg t C.s (C.pc t) ch = some (s', p', e) →
      okFresh cfg C.s (C.pc t) ch → MixedExec cfg n (h ++ e.toList) ⟨s', upd C.pc t p'⟩
  | unsync {h C t o s' r} : MixedExec cfg n h C → (∀ t, C.pc t = .idle) → C.s.unsync cfg o = some (s', r) →
      MixedExec cfg n (h ++ [.inv t o, .res t r]) ⟨s', C.pc⟩

/-- **C24 (mixing).** Replacing each unsynchronized call by the thread-safe one gives an execution with the same history and
the same states. So everything proved of thread-safe executions holds of mixed ones. -/
theorem mixed_exec_fresh (hx : MixedExec cfg n h C) : FreshExec cfg n h C := by
  induction hx with
  | init => exact .refl _
  | step _ hs hok ih => exact .step ih hs hok
  | @unsync h C t o s' r _ hq hu ih =>
    obtain ⟨k, hr⟩ := unsync_runs hu t
    have := Runs.exec ih (hq t) hr
    rwa [upd_same (hq t)] at this

/-- Mixed executions are linearizable. -/
theorem mixed_linearizable (hx : MixedExec cfg n h C) : Linearizable (spec α cfg.fixed) h :=
  stack_linearizable (mixed_exec_fresh hx)

theorem unsync_ne_threw {s s' : St α} {o : Op α} (hu : s.unsync cfg o = some (s', .threw)) : False := by
  unfold St.unsync at hu
  split at hu
  · unfold St.pushU St.pushB at hu; split at hu <;> simp at hu
  · split at hu
    · simp at hu
    · unfold St.pushRangeU at hu
      split at hu
      · simp at hu
      · split at hu
        · simp at hu
        · simp at hu
        · split at hu <;> simp at hu
  · unfold St.popU at hu; split at hu
    · simp at hu
    · split at hu <;> simp at hu
  · split at hu <;> simp at hu
  · simp at hu

theorem pushB_false {s s' : St α} {b v} (hu : s.pushB cfg b v = some (s', .pushed false)) :
    s.heap.pool.ptr = none ∧ (cfg.fixed || b) = true ∧ s' = s := by
  unfold St.pushB at hu
  split at hu <;> simp at hu
  rename_i s'' hc
  subst hu
  unfold St.constructU Heap.allocUnsafe at hc
  split at hc
  · rename_i hh
    split at hh
    · rename_i hp
      split at hh
      · rename_i hb
        simp at hc hh
        exact ⟨hp, hb, by rw [← hc, ← hh]⟩
      · simp at hh
    · simp at hh
  · split at hc <;> simp at hc

theorem unsync_push_false {s s' : St α} {o : Op α} (hu : s.unsync cfg o = some (s', .pushed false)) :
    s.heap.pool.ptr = none := by
  unfold St.unsync at hu
  split at hu
  · exact (pushB_false hu).1
  · split at hu
    · simp at hu
    · unfold St.pushRangeU at hu
      split at hu
      · simp at hu
      · split at hu
        · simp at hu
        · simp at hu
        · split at hu <;> simp at hu
  · unfold St.popU at hu; split at hu
    · simp at hu
    · split at hu <;> simp at hu
  · split at hu <;> simp at hu
  · simp at hu

/-- **C24 (effect).** When no call is in progress, every unsynchronized operation terminates without undefined behaviour; its
result and its effect on the contents of the stack are those of the sequential specification, and the state it leaves is one
from which thread-safe use may continue. A push fails only if no node is free. -/
theorem unsync_spec (hx : MixedExec cfg n h C) (hq : ∀ t, C.pc t = .idle) {σ : List α} (hσ : Holds C.s σ) {o : Op α}
    (ho : HasUnsync cfg o) :
    ∃ s' r σ', C.s.unsync cfg o = some (s', r) ∧ specStep cfg.fixed σ o r σ' ∧ Holds s' σ' ∧ r ≠ .threw ∧
      (r = .pushed false → ∀ m, ¬ InFree C.s m) ∧
      ∀ t, MixedExec cfg n (h ++ [.inv t o, .res t r]) ⟨s', C.pc⟩ := by
  have hf := mixed_exec_fresh hx
  cases hu : C.s.unsync cfg o with
  | none =>
    obtain ⟨k, s', hr⟩ := unsync_err ho hu 0
    exact absurd (by simp) (stack_no_undefined_behaviour (Runs.exec hf (hq 0) hr) 0)
  | some x =>
    obtain ⟨s', r⟩ := x
    obtain ⟨k, hr⟩ := unsync_runs hu 0
    obtain ⟨_, vs, vs', h1, h2, h3⟩ := stack_solo_call hf hq
      ((hr.mono fun _ _ _ h => h.fresh (cfg := cfg)).steps (C := C) rfl (hq 0))
    rw [hσ.unique h1]
    refine ⟨s', r, vs', rfl, h3, h2, ?_, ?_, fun t => .unsync hx hq hu⟩
    all_goals rintro rfl
    · exact unsync_ne_threw hu
    · intro m
      exact inFree_of_null (unsync_push_false hu) m

/-- A sequence of unsynchronized calls and their results. -/
def St.unsyncs (cfg : Cfg) (s : St α) : List (Op α) → Option (St α × List (Ret α))
  | [] => some (s, [])
  | o :: os => match s.unsync cfg o with
    | none => none
    | some (s, r) => match St.unsyncs cfg s os with
      | none => none
      | some (s, rs) => some (s, r :: rs)

/-- What a sequence of calls does to a list of elements. -/
def specRun (fixed : Bool) : List α → List (Op α) → List (Ret α) → List α → Prop
  | σ, [], [], σ' => σ' = σ
  | σ, o :: os, r :: rs, σ'' => ∃ σ', specStep fixed σ o r σ' ∧ specRun fixed σ' os rs σ''
  | _, _, _, _ => False

/-- **C24 (sequences).** Any sequence of unsynchronized calls behaves as on a LIFO list. -/
theorem unsync_sequence {os : List (Op α)} : ∀ {h C σ}, MixedExec cfg n h C → (∀ t, C.pc t = .idle) → Holds C.s σ →
    (∀ o ∈ os, HasUnsync cfg o) →
    ∃ s' rs σ', C.s.unsyncs cfg os = some (s', rs) ∧ specRun cfg.fixed σ os rs σ' ∧ Holds s' σ' ∧
      ∃ h', MixedExec cfg n (h ++ h') ⟨s', C.pc⟩ := by
  induction os with
  | nil => intro h C σ hx hq hσ _; exact ⟨C.s, [], σ, rfl, rfl, hσ, [], by simpa using hx⟩
  | cons o os ih =>
    intro h C σ hx hq hσ ho
    obtain ⟨s₁, r, σ₁, h1, h2, h3, _, _, h4⟩ := unsync_spec hx hq hσ (ho o (by simp))
    obtain ⟨s', rs, σ', h5, h6, h7, h', h8⟩ := ih (h4 0) hq h3 fun o' ho' => ho o' (by simp [ho'])
    refine ⟨s', r :: rs, σ', ?_, ⟨σ₁, h2, h6⟩, h7, _, by rw [List.append_assoc] at h8; exact h8⟩
    simp only [St.unsyncs, h1, h5]

end Verif.Stack
