import Verif.Alone
import Verif.Queue.Pool

/-!
# Model of the unsynchronized operations of `include/boost/lockfree/queue.hpp`, and C31

As for the stack (`Verif.Stack.Unsync`) these are functions of the shared state. They contain loops; `fuel` bounds the number
of iterations that are executed, and a result `none` means: undefined behaviour, or not finished within `fuel` iterations.
The theorems say that two iterations always suffice. Exceptions are left out: allocator, copy constructor and conversion do
not throw.
-/

namespace Verif.Queue
open Lin

variable {α : Type}

/-- `construct<false, Bounded>(v, null)` (freelist.hpp:95-102 with 198-217; queue.hpp:116-123): allocate, construct the payload,
clear the link and increment its tag. `none`: there is a live object in the node already. -/
def St.constructU (cfg : Cfg) (b : Bool) (s : St α) (v : α) : Option (St α × Option Nat) :=
  match s.heap.allocUnsafe cfg b with
  | (h, none) => some ({ s with heap := h }, none)
  | (h, some n) =>
    if (h.data n).isSome then none
    else some ({ s with heap := { h.setData n (some v) with
                                    next := upd h.next n ⟨none, cfg.nextTag (h.next n).tag⟩,
                                    nver := upd h.nver n (h.nver n + 1) } }, some n)

/-- The loop of `unsynchronized_push` (queue.hpp:384-395). -/
def St.appendU (cfg : Cfg) (n : Nat) : Nat → St α → Option (St α)
  | 0, _ => none
  | fuel + 1, s =>
    match s.tail.ptr with
    | none => none
    | some x =>
      match (s.heap.next x).ptr with
      | none => some { s with heap := { s.heap with next := upd s.heap.next x ⟨some n, cfg.nextTag (s.heap.next x).tag⟩,
                                                    nver := upd s.heap.nver x (s.heap.nver x + 1) },
                              tail := ⟨some n, cfg.nextTag s.tail.tag⟩, tailVer := s.tailVer + 1 }
      | some y => St.appendU cfg n fuel { s with tail := ⟨some y, cfg.nextTag s.tail.tag⟩, tailVer := s.tailVer + 1 }

/-- The body of `unsynchronized_push` (queue.hpp:377-396), for both values of `Bounded`. -/
def St.pushB (cfg : Cfg) (fuel : Nat) (b : Bool) (s : St α) (v : α) : Option (St α × Ret α) :=
  match s.constructU cfg b v with
  | none => none
  | some (s, none) => some (s, .pushed false)
  | some (s, some n) => (s.appendU cfg n fuel).map fun s => (s, .pushed true)

/-- `unsynchronized_pop` (queue.hpp:481-512). -/
def St.popU (cfg : Cfg) : Nat → St α → Option (St α × Ret α)
  | 0, _ => none
  | fuel + 1, s =>
    match s.head.ptr with
    | none => none
    | some x =>
      match (s.heap.next x).ptr with
      | none => if s.head.ptr = s.tail.ptr then some (s, .popped none) else St.popU cfg fuel s
      | some y =>
        if s.head.ptr = s.tail.ptr then
          St.popU cfg fuel { s with tail := ⟨some y, cfg.nextTag s.tail.tag⟩, tailVer := s.tailVer + 1 }
        else
          match s.heap.data y with
          | none => none
          | some v =>
            some ({ s with heap := (s.heap.setData x none).deallocUnsafe x,
                           head := ⟨some y, cfg.nextTag s.head.tag⟩, headVer := s.headVer + 1 }, .popped (some v))

/-- The unsynchronized operation that corresponds to a thread-safe one. `unsynchronized_push` uses `tail->next` and
`next.get_ptr()` (queue.hpp:386-387), which exist for tagged pointers only: it does not compile for fixed-size queues.
`reserve_unsafe` (queue.hpp:280-283) likewise. -/
def St.unsync (cfg : Cfg) (fuel : Nat) (s : St α) : Op α → Option (St α × Ret α)
  | .push false v => if cfg.fixed then none else s.pushB cfg fuel false v
  | .pop => s.popU cfg fuel
  | .reserve k => if cfg.fixed then none else some ({ s with heap := s.heap.addNodes k }, .reserved)
  | _ => none

/-- The calls for which there is an unsynchronized version. -/
def HasUnsync (cfg : Cfg) : Op α → Prop
  | .push b _ => b = false ∧ cfg.fixed = false
  | .pop => True
  | .reserve _ => cfg.fixed = false
  | _ => False

/-! ### The thread-safe operations, run by one thread alone -/

/-- Steps of a thread running alone: no exception, no spurious failure, and snapshots are up to date. -/
def okNow (s : St α) (p : PC α) (ch : QChoice α) : Prop :=
  (∀ M f, okFresh ⟨M, f⟩ s p ch) ∧ (ch = .base .go ∨ ∃ o, ch = .base (.call o))

theorem okNow.fresh {cfg : Cfg} {s : St α} {p ch} (h : okNow s p ch) : okFresh cfg s p ch := h.1 cfg.M cfg.fixed

abbrev Runs (cfg : Cfg) (t k : Nat) (s : St α) (p : PC α) (h : History (Op α) (Ret α)) (s' : St α) (p' : PC α) : Prop :=
  Alone (mach α cfg) okNow t k s p h s' p'

theorem fresh_lt (M v : Nat) : M = 0 ∨ v < v + M := by omega

theorem Runs.step {cfg : Cfg} {t k : Nat} {s s' s'' : St α} {p p' p'' : PC α} {h}
    (hs : tstep cfg t s p (.base .go) = some (s', p', none)) (hf : ∀ M f, Queue.fresh ⟨M, f⟩ s p)
    (hx : Runs cfg t k s' p' h s'' p'') : Runs cfg t (k + 1) s p h s'' p'' := by
  have := Alone.cons (m := mach α cfg) (ok := okNow) (ch := .base .go) (e := none) hs ⟨hf, .inl rfl⟩ hx
  simpa using this

theorem Runs.ret {cfg : Cfg} {t : Nat} {s : St α} {r} : Runs cfg t 1 s (.ret r) [.res t r] s .idle := by
  have := Alone.cons (m := mach α cfg) (ok := okNow) (t := t) (s := s) (p := .ret r) (ch := .base .go)
    (e := some (.res t r)) rfl ⟨fun M f => trivial, .inl rfl⟩ (.nil _ _)
  simpa using this

theorem Runs.call {cfg : Cfg} {t k : Nat} {s s'' : St α} {o p' p'' h} (ho : start cfg o = some p')
    (hx : Runs cfg t k s p' h s'' p'') : Runs cfg t (k + 1) s .idle (.inv t o :: h) s'' p'' := by
  have := Alone.cons (m := mach α cfg) (ok := okNow) (t := t) (s := s) (p := .idle) (ch := .base (.call o)) (p' := p')
    (s' := s) (e := some (.inv t o)) (by simp [mach, tstep, ho]) ⟨fun M f => trivial, .inr ⟨o, rfl⟩⟩ hx
  simpa using this

/-- Where `construct` goes on after `allocate`. -/
def onAlloc (b : Bool) (v : α) : Option Nat → PC α
  | none => .ret (.pushed false)
  | some n => .constr b v n

theorem alloc_runs {cfg : Cfg} {t : Nat} {s : St α} {b v h r} (ha : s.heap.allocUnsafe cfg b = (h, r)) :
    ∃ j, j ≤ 3 ∧ Runs cfg t j s (.alloc b v .load) [] { s with heap := h } (onAlloc b v r) := by
  unfold Heap.allocUnsafe at ha
  have h1 : tstep cfg t s (.alloc b v .load) (.base .go) = some (s, .alloc b v (.test s.heap.poolSnap), none) := rfl
  split at ha
  · rename_i hp
    split at ha
    · rename_i hb
      cases ha
      refine ⟨2, by omega, .step h1 (fun _ _ => trivial) (.step ?_ (fun _ _ => trivial) (.nil _ _))⟩
      simp [tstep, aStep, Heap.poolSnap, hp, hb, onAlloc]
    · rename_i hb
      cases ha
      refine ⟨2, by omega, .step h1 (fun _ _ => trivial) (.step ?_ (fun _ _ => trivial) (.nil _ _))⟩
      simp [tstep, aStep, Heap.poolSnap, hp, hb, onAlloc]
  · rename_i n hp
    cases ha
    refine ⟨3, by omega, .step h1 (fun _ _ => trivial)
      (.step (p' := .alloc b v (.cas s.heap.poolSnap (s.heap.next n).ptr)) (s' := s) ?_
      (fun _ _ => trivial) (.step ?_ (fun _ _ => fresh_lt _ _) (.nil _ _)))⟩
    · simp [tstep, aStep, Heap.poolSnap, hp]
    · simp [tstep, aStep, Heap.poolSnap, hp, onAlloc]

theorem free_runs {cfg : Cfg} {t : Nat} {s : St α} {k n} :
    Runs cfg t 3 s (.free k n .load) [] { s with heap := s.heap.deallocUnsafe n } (onFreed k) := by
  refine .step (s' := s) (p' := .free k n (.set s.heap.poolSnap)) rfl (fun _ _ => trivial)
    (.step (s' := { s with heap := s.heap.setNextPtr n s.heap.pool.ptr }) (p' := .free k n (.cas s.heap.poolSnap)) rfl
      (fun _ _ => trivial) (.step ?_ (fun _ _ => trivial) (.nil _ _)))
  simp [tstep, dStep, Heap.poolSnap, Heap.setNextPtr, Heap.deallocUnsafe]

/-- Where a push goes on after `construct`. -/
def onConstr : Option Nat → PC α
  | none => .ret (.pushed false)
  | some n => .pTail n

theorem construct_runs {cfg : Cfg} {t : Nat} {s s' : St α} {b v x} (hc : s.constructU cfg b v = some (s', x)) :
    ∃ j, j ≤ 6 ∧ Runs cfg t j s (.alloc b v .load) [] s' (onConstr x) := by
  unfold St.constructU at hc
  cases ha : s.heap.allocUnsafe cfg b with
  | mk h x =>
    obtain ⟨j, hj, h1⟩ := alloc_runs (t := t) (s := s) (v := v) ha
    rw [ha] at hc
    cases x with
    | none => cases hc; exact ⟨j, by omega, h1⟩
    | some n =>
      simp only at hc
      split at hc
      · simp at hc
      · rename_i hd
        cases hc
        have h2 := h1.trans (Runs.step (t := t) (cfg := cfg) (s := { s with heap := h }) (p := .constr b v n)
          (s' := { s with heap := h.setData n (some v) }) (p' := .nload b v n)
          (by simp_all [tstep]) (fun _ _ => trivial)
          (.step (s' := { s with heap := h.setData n (some v) }) (p' := .nstore b v n (h.next n)) rfl (fun _ _ => trivial)
            (.step (p' := .pTail n) rfl (fun _ _ => trivial) (.nil _ _))))
        exact ⟨j + 3, by omega, h2⟩

theorem append_runs {cfg : Cfg} {t n : Nat} : ∀ {fuel} {s s' : St α}, s.appendU cfg n fuel = some s' →
    ∃ j, j ≤ 4 * fuel + 1 ∧ Runs cfg t j s (.pTail n) [] s' (.ret (.pushed true))
  | 0, s, s', h => by simp [St.appendU] at h
  | fuel + 1, s, s', h => by
    unfold St.appendU at h
    split at h
    · simp at h
    · rename_i x hx
      have h1 : tstep cfg t s (.pTail n) (.base .go) = some (s, .pNext n s.tailSnap, none) := rfl
      have h2 : tstep cfg t s (.pNext n s.tailSnap) (.base .go) = some (s, .pCheck n s.tailSnap (s.nextSnap x), none) := by
        simp [tstep, St.tailSnap, hx]
      split at h
      · rename_i hn
        cases h
        refine ⟨5, by omega, .step h1 (fun _ _ => trivial) (.step h2 (fun _ _ => trivial)
          (.step (s' := s) (p' := .pCas n s.tailSnap (s.nextSnap x)) ?_ (fun _ _ => fresh_lt _ _)
            (.step (s' := { s with heap := { s.heap with
                              next := upd s.heap.next x ⟨some n, cfg.nextTag (s.heap.next x).tag⟩,
                              nver := upd s.heap.nver x (s.heap.nver x + 1) } })
              (p' := .swing .donePush s.tailSnap n) ?_ (fun M _ y hy => ?_)
              (.step ?_ (fun _ _ => fresh_lt _ _) (.nil _ _)))))⟩
        · simp [tstep, St.tailSnap, St.nextSnap, pBranch, hn]
        · simp [tstep, St.tailSnap, St.nextSnap, hx]
        · simp only [St.tailSnap, hx] at hy; cases hy; exact fresh_lt _ _
        · simp [tstep, St.tailSnap, St.swingTail, onSwung]
      · rename_i y hn
        obtain ⟨j, hj, h3⟩ := append_runs (t := t) h
        refine ⟨j + 1 + 1 + 1 + 1, by omega, .step h1 (fun _ _ => trivial) (.step h2 (fun _ _ => trivial)
          (.step (s' := s) (p' := .swing (.retryPush n) s.tailSnap y) ?_ (fun _ _ => fresh_lt _ _)
            (.step ?_ (fun _ _ => fresh_lt _ _) h3)))⟩
        · simp [tstep, St.tailSnap, St.nextSnap, pBranch, hn]
        · simp [tstep, St.tailSnap, St.swingTail, onSwung]

theorem push_runs {cfg : Cfg} {fuel : Nat} {s s' : St α} {b v r} (hp : s.pushB cfg fuel b v = some (s', r)) (t : Nat) :
    ∃ k, k ≤ 4 * fuel + 9 ∧ Runs cfg t k s .idle [.inv t (.push b v), .res t r] s' .idle := by
  unfold St.pushB at hp
  cases hc : s.constructU cfg b v with
  | none => rw [hc] at hp; simp at hp
  | some x =>
    obtain ⟨s₁, x⟩ := x
    rw [hc] at hp
    obtain ⟨j, hj, h1⟩ := construct_runs (t := t) hc
    cases x with
    | none =>
      simp at hp
      obtain ⟨rfl, rfl⟩ := hp
      exact ⟨_, by omega, .call rfl (h1.trans Runs.ret)⟩
    | some n =>
      simp at hp
      obtain ⟨h2, rfl⟩ := hp
      obtain ⟨j', hj', h3⟩ := append_runs (t := t) h2
      exact ⟨_, by omega, .call rfl (h1.trans (h3.trans Runs.ret))⟩

theorem popLoop_runs {cfg : Cfg} {t : Nat} : ∀ {fuel} {s s' : St α} {r}, s.popU cfg fuel = some (s', r) →
    ∃ j, j ≤ 5 * fuel + 6 ∧ Runs cfg t j s .cHead [.res t r] s' .idle
  | 0, s, s', r, h => by simp [St.popU] at h
  | fuel + 1, s, s', r, h => by
    unfold St.popU at h
    split at h
    · simp at h
    · rename_i x hx
      have h1 : tstep cfg t s .cHead (.base .go) = some (s, .cTail s.headSnap, none) := rfl
      have h2 : tstep cfg t s (.cTail s.headSnap) (.base .go) = some (s, .cNext s.headSnap s.tailSnap, none) := rfl
      have h3 : tstep cfg t s (.cNext s.headSnap s.tailSnap) (.base .go) =
          some (s, .cCheck s.headSnap s.tailSnap (s.nextSnap x), none) := by simp [tstep, St.headSnap, hx]
      split at h
      · rename_i hn
        split at h
        · rename_i ht
          simp at h
          obtain ⟨rfl, rfl⟩ := h
          refine ⟨5, by omega, .step h1 (fun _ _ => trivial) (.step h2 (fun _ _ => trivial) (.step h3 (fun _ _ => trivial)
            (.step (s' := s) (p' := .ret (.popped none)) ?_ (fun _ _ => fresh_lt _ _) .ret)))⟩
          simp [tstep, St.headSnap, St.tailSnap, St.nextSnap, cBranch, hn, ht]
        · rename_i ht
          obtain ⟨j, hj, h4⟩ := popLoop_runs (t := t) h
          refine ⟨j + 1 + 1 + 1 + 1, by omega, .step h1 (fun _ _ => trivial) (.step h2 (fun _ _ => trivial)
            (.step h3 (fun _ _ => trivial) (.step ?_ (fun _ _ => fresh_lt _ _) h4)))⟩
          simp [tstep, St.headSnap, St.tailSnap, St.nextSnap, cBranch, hn, ht]
      · rename_i y hn
        split at h
        · rename_i ht
          obtain ⟨j, hj, h4⟩ := popLoop_runs (t := t) h
          refine ⟨j + 1 + 1 + 1 + 1 + 1, by omega, .step h1 (fun _ _ => trivial) (.step h2 (fun _ _ => trivial)
            (.step h3 (fun _ _ => trivial) (.step (s' := s) (p' := .swing .retryPop s.tailSnap y) ?_ (fun _ _ => fresh_lt _ _)
              (.step ?_ (fun _ _ => fresh_lt _ _) h4))))⟩
          · simp [tstep, St.headSnap, St.tailSnap, St.nextSnap, cBranch, hn, ht]
          · simp [tstep, St.tailSnap, St.swingTail, onSwung]
        · rename_i ht
          split at h
          · simp at h
          · rename_i v hd
            simp at h
            obtain ⟨rfl, rfl⟩ := h
            refine ⟨11, by omega, .step h1 (fun _ _ => trivial) (.step h2 (fun _ _ => trivial) (.step h3 (fun _ _ => trivial)
              (.step (s' := s) (p' := .cData s.headSnap y) ?_ (fun _ _ => fresh_lt _ _)
                (.step (s' := s) (p' := .cCas s.headSnap y v) ?_ (fun _ _ => trivial)
                  (.step (s' := { s with head := ⟨some y, cfg.nextTag s.head.tag⟩, headVer := s.headVer + 1 })
                    (p' := .cDestroy x v) ?_ (fun _ _ => fresh_lt _ _)
                    (.step (p' := .free (.pop v) x .load) rfl (fun _ _ => trivial)
                      ((free_runs (k := .pop v) (n := x)).trans Runs.ret)))))))⟩
            · simp [tstep, St.headSnap, St.tailSnap, St.nextSnap, cBranch, hn, ht]
            · simp [tstep, hd]
            · simp [tstep, St.headSnap, hx]

theorem pop_runs {cfg : Cfg} {fuel : Nat} {s s' : St α} {r} (hp : s.popU cfg fuel = some (s', r)) (t : Nat) :
    ∃ k, k ≤ 5 * fuel + 7 ∧ Runs cfg t k s .idle [.inv t .pop, .res t r] s' .idle := by
  obtain ⟨j, hj, h1⟩ := popLoop_runs (t := t) hp
  exact ⟨_, by omega, .call rfl h1⟩

theorem rsv_runs {cfg : Cfg} {t k : Nat} : ∀ {s : St α},
    ∃ j, j ≤ 4 * k + 1 ∧ Runs cfg t j s (.rsv k) [] { s with heap := s.heap.addNodes k } (.ret .reserved) := by
  induction k with
  | zero => intro s; exact ⟨1, by omega, .step rfl (fun _ _ => trivial) (.nil _ _)⟩
  | succ k ih =>
    intro s
    obtain ⟨j, hj, h1⟩ := ih (s := { s with heap := s.heap.malloc.deallocUnsafe s.heap.nalloc })
    refine ⟨3 + j + 1, by omega, ?_⟩
    have h2 := (free_runs (t := t) (cfg := cfg) (s := { s with heap := s.heap.malloc }) (k := .rsv k)
      (n := s.heap.nalloc)).trans h1
    have h3 : Runs cfg t (3 + j + 1) s (.rsv (k + 1)) [] _ _ := .step rfl (fun _ _ => trivial) h2
    simpa [Heap.addNodes_front] using h3

/-- **C31.** A thread-safe call made by one thread alone, without spurious failures, ends with the same state and result as
the unsynchronized version, after a bounded number of steps. This holds from every state, reachable or not. -/
theorem unsync_runs {cfg : Cfg} {fuel : Nat} {s s' : St α} {o r} (hu : s.unsync cfg fuel o = some (s', r)) (t : Nat) :
    ∃ k, Runs cfg t k s .idle [.inv t o, .res t r] s' .idle := by
  unfold St.unsync at hu
  split at hu
  · split at hu
    · simp at hu
    · obtain ⟨k, _, h⟩ := push_runs hu t; exact ⟨k, h⟩
  · obtain ⟨k, _, h⟩ := pop_runs hu t; exact ⟨k, h⟩
  · split at hu
    · simp at hu
    · rename_i k hf
      cases hu
      obtain ⟨j, _, h⟩ := rsv_runs (t := t) (cfg := cfg) (s := s) (k := k)
      exact ⟨_, .call (by simp [start, hf]) (h.trans Runs.ret)⟩
  · simp at hu

/-! ### Two iterations suffice, and nothing is undefined -/

theorem construct_err {cfg : Cfg} {t : Nat} {s : St α} {b v} (hc : s.constructU cfg b v = none) :
    ∃ j s', Runs cfg t j s (.alloc b v .load) [] s' .err := by
  unfold St.constructU at hc
  cases ha : s.heap.allocUnsafe cfg b with
  | mk h x =>
    obtain ⟨j, hj, h1⟩ := alloc_runs (t := t) (s := s) (v := v) ha
    rw [ha] at hc
    cases x with
    | none => simp at hc
    | some n =>
      simp only at hc
      split at hc
      · rename_i hd
        exact ⟨_, { s with heap := h }, h1.trans (Runs.step (t := t) (cfg := cfg) (p := .constr b v n) (p' := .err)
          (by simp [tstep, hd]) (fun _ _ => trivial) (.nil _ _))⟩
      · simp at hc

theorem append_defined {cfg : Cfg} {s : St α} {g σ} (hi : SI cfg s g σ) {n fuel : Nat} (hf : 2 ≤ fuel) :
    ∃ s', s.appendU cfg n fuel = some s' := by
  obtain ⟨fuel, rfl⟩ : ∃ k, fuel = k + 2 := ⟨fuel - 2, by omega⟩
  obtain ⟨A, x, hx, hL | ⟨y, hL⟩⟩ := hi.tl
  · have h1 := Chain.last_null hi.chain (x := x) (by simp [hL])
    simp [St.appendU, hx, h1]
  · have h1 := Chain.last_null hi.chain (x := y) (by simp [hL])
    have h2 := Chain.next_mem (hL ▸ hi.chain)
    simp [St.appendU, hx, h1, h2]

theorem pop_defined {cfg : Cfg} {s : St α} {g σ} (hi : SI cfg s g σ) {fuel : Nat} (hf : 2 ≤ fuel) :
    ∃ s' r, s.popU cfg fuel = some (s', r) := by
  obtain ⟨fuel, rfl⟩ : ∃ k, fuel = k + 2 := ⟨fuel - 2, by omega⟩
  obtain ⟨A, z, hz, hL'⟩ := hi.tl
  have hc := hi.chain
  have hd := hi.data
  have hn := hi.nodup
  cases hL : g.L with
  | nil => rcases hL' with h | ⟨_, h⟩ <;> simp [hL] at h
  | cons x B =>
    rw [hL] at hc hd hn
    have hh : s.head.ptr = some x := hc.1
    cases B with
    | nil =>
      have h1 := Chain.last_null hc (x := x) (by simp)
      have h2 : z = x := by
        rcases hL' with h | ⟨y, h⟩
        · rw [hL] at h
          have := congrArg List.getLast? h
          simpa using this.symm
        · rw [hL] at h
          have := congrArg List.length h
          simp at this
      subst h2
      simp [St.popU, hh, h1, hz]
    | cons y B =>
      have h1 := Chain.next_mem (A := []) hc
      have hxy : x ≠ y := by simp at hn; exact hn.1.1
      obtain ⟨v, hv⟩ : ∃ v, s.heap.data y = some v := by
        cases σ with
        | nil => simp at hd
        | cons v σ => simp at hd; exact ⟨v, hd.1⟩
      by_cases hxz : x = z
      · subst hxz
        simp [St.popU, hh, h1, hz, hv, hxy]
      · simp [St.popU, hh, h1, hz, hv, hxz]

variable {cfg : Cfg} {n : Nat} {h : History (Op α) (Ret α)} {C : Conf α}

theorem Runs.exec {t k : Nat} {s' : St α} {h' p p'} (hx : FreshExec cfg n h C) (hp : C.pc t = p)
    (hr : Runs cfg t k C.s p h' s' p') : FreshExec cfg n (h ++ h') ⟨s', upd C.pc t p'⟩ :=
  hx.trans ((hr.mono fun _ _ _ h => h.fresh).steps rfl hp)

/-- In a configuration without calls in progress an unsynchronized operation is defined, and its loop is left in the second
iteration at the latest. -/
theorem unsync_defined (hx : FreshExec cfg n h C) (hq : ∀ t, C.pc t = .idle) {o : Op α} (ho : HasUnsync cfg o) {fuel : Nat}
    (hf : 2 ≤ fuel) : ∃ s' r, C.s.unsync cfg fuel o = some (s', r) := by
  cases o with
  | push b v =>
    obtain ⟨rfl, h1⟩ := ho
    simp only [St.unsync, h1, St.pushB]
    cases hc : C.s.constructU cfg false v with
    | none =>
      obtain ⟨j, s', hr⟩ := construct_err (t := 0) hc
      have hr : Runs cfg 0 (j + 1) C.s .idle [.inv 0 (.push false v)] s' .err := .call rfl hr
      exact absurd (by simp) (queue_no_undefined_behaviour (Runs.exec hx (hq 0) hr) 0)
    | some y =>
      obtain ⟨s₁, m⟩ := y
      cases m with
      | none => simp
      | some m =>
        obtain ⟨j, _, hr⟩ := construct_runs (t := 0) hc
        have hr : Runs cfg 0 (j + 1) C.s .idle [.inv 0 (.push false v)] s₁ (.pTail m) := .call rfl hr
        obtain ⟨g, c, hi, _⟩ := (Runs.exec hx (hq 0) hr).inv
        obtain ⟨s', h2⟩ := append_defined hi.si (n := m) hf
        simp at h2 ⊢
        simp [h2]
  | pop =>
    obtain ⟨g, c, hi, _⟩ := hx.inv
    exact pop_defined hi.si hf
  | reserve k => exact ⟨_, _, by simp only [St.unsync, show cfg.fixed = false from ho]; rfl⟩
  | empty => exact ho.elim

/-! ### C31 -/

/-- Executions in which, at moments when no thread-safe call is in progress, unsynchronized operations are called too. Such a
call is recorded in the history under the name of its thread-safe version. -/
inductive MixedExec (cfg : Cfg) (n : Nat) : History (Op α) (Ret α) → Conf α → Prop where
  | init : MixedExec cfg n [] (Conf.initial cfg n)
  | step {h C t ch s' p' e} : MixedExec cfg n h C → tstep cfg t C.s (C.pc t) ch = some (s', p', e) →
      okFresh cfg C.s (C.pc t) ch → MixedExec cfg n (h ++ e.toList) ⟨s', upd C.pc t p'⟩
  | unsync {h C t fuel o s' r} : MixedExec cfg n h C → (∀ t, C.pc t = .idle) → C.s.unsync cfg fuel o = some (s', r) →
      MixedExec cfg n (h ++ [.inv t o, .res t r]) ⟨s', C.pc⟩

/-- **C31 (mixing).** Replacing each unsynchronized call by the thread-safe one gives an execution with the same history and
the same states. So everything proved of thread-safe executions holds of mixed ones. -/
theorem mixed_exec_fresh (hx : MixedExec cfg n h C) : FreshExec cfg n h C := by
  induction hx with
  | init => exact .refl _
  | step _ hs hok ih => exact .step ih hs hok
  | @unsync h C t fuel o s' r _ hq hu ih =>
    obtain ⟨k, hr⟩ := unsync_runs hu t
    have := Runs.exec ih (hq t) hr
    rwa [upd_same (hq t)] at this

/-- Mixed executions are linearizable. -/
theorem mixed_linearizable (hx : MixedExec cfg n h C) : Linearizable (spec α cfg.fixed) h :=
  queue_linearizable (mixed_exec_fresh hx)

/-- No unsynchronized operation throws (in this model), and a push of the unsynchronized kind does not fail: it exists for
node-based queues only. -/
theorem unsync_res {s s' : St α} {o : Op α} {fuel r} (hu : s.unsync cfg fuel o = some (s', r)) :
    r ≠ .threw ∧ r ≠ .pushed false := by
  unfold St.unsync at hu
  split at hu
  · split at hu
    · simp at hu
    · rename_i v hf
      unfold St.pushB at hu
      split at hu
      · simp at hu
      · rename_i hc
        unfold St.constructU Heap.allocUnsafe at hc
        split at hc
        · rename_i ha
          split at ha
          · simp [hf] at ha
          · simp at ha
        · split at hc <;> simp at hc
      · simp at hu; simp [← hu.2]
  · have : ∀ {fuel} {s s' : St α} {r}, s.popU cfg fuel = some (s', r) → r ≠ .threw ∧ r ≠ .pushed false := by
      intro fuel
      induction fuel with
      | zero => intro s s' r h; simp [St.popU] at h
      | succ k ih =>
        intro s s' r h
        unfold St.popU at h
        repeat' split at h
        all_goals first | exact ih h | (simp at h; done) | (simp at h; simp [← h.2])
    exact this hu
  · split at hu
    · simp at hu
    · cases hu; simp
  · simp at hu

/-- **C31 (effect).** When no call is in progress, every unsynchronized operation terminates within two iterations of its loop,
without undefined behaviour; its result and its effect on the contents of the queue are those of the sequential specification,
a push succeeds, and the state it leaves is one from which thread-safe use may continue. -/
theorem unsync_spec (hx : MixedExec cfg n h C) (hq : ∀ t, C.pc t = .idle) {σ : List α} (hσ : Holds C.s σ) {o : Op α}
    (ho : HasUnsync cfg o) {fuel : Nat} (hf : 2 ≤ fuel) :
    ∃ s' r σ', C.s.unsync cfg fuel o = some (s', r) ∧ specStep cfg.fixed σ o r σ' ∧ Holds s' σ' ∧ r ≠ .threw ∧
      r ≠ .pushed false ∧ ∀ t, MixedExec cfg n (h ++ [.inv t o, .res t r]) ⟨s', C.pc⟩ := by
  have hx' := mixed_exec_fresh hx
  obtain ⟨s', r, hu⟩ := unsync_defined hx' hq ho hf
  obtain ⟨k, hr⟩ := unsync_runs hu 0
  obtain ⟨_, vs, vs', h1, h2, h3⟩ := queue_solo_call hx' hq
    ((hr.mono fun _ _ _ h => h.fresh (cfg := cfg)).steps (C := C) rfl (hq 0))
  rw [hσ.unique h1]
  exact ⟨s', r, vs', hu, h3, h2, (unsync_res hu).1, (unsync_res hu).2, fun t => .unsync hx hq hu⟩

/-- A sequence of unsynchronized calls and their results. -/
def St.unsyncs (cfg : Cfg) (fuel : Nat) (s : St α) : List (Op α) → Option (St α × List (Ret α))
  | [] => some (s, [])
  | o :: os => match s.unsync cfg fuel o with
    | none => none
    | some (s, r) => match St.unsyncs cfg fuel s os with
      | none => none
      | some (s, rs) => some (s, r :: rs)

/-- What a sequence of calls does to a list of elements. -/
def specRun (fixed : Bool) : List α → List (Op α) → List (Ret α) → List α → Prop
  | σ, [], [], σ' => σ' = σ
  | σ, o :: os, r :: rs, σ'' => ∃ σ', specStep fixed σ o r σ' ∧ specRun fixed σ' os rs σ''
  | _, _, _, _ => False

/-- **C31 (sequences).** Any sequence of unsynchronized calls behaves as on a FIFO list. -/
theorem unsync_sequence {os : List (Op α)} {fuel : Nat} (hf : 2 ≤ fuel) : ∀ {h C σ}, MixedExec cfg n h C →
    (∀ t, C.pc t = .idle) → Holds C.s σ → (∀ o ∈ os, HasUnsync cfg o) →
    ∃ s' rs σ', C.s.unsyncs cfg fuel os = some (s', rs) ∧ specRun cfg.fixed σ os rs σ' ∧ Holds s' σ' ∧
      ∃ h', MixedExec cfg n (h ++ h') ⟨s', C.pc⟩ := by
  induction os with
  | nil => intro h C σ hx hq hσ _; exact ⟨C.s, [], σ, rfl, rfl, hσ, [], by simpa using hx⟩
  | cons o os ih =>
    intro h C σ hx hq hσ ho
    obtain ⟨s₁, r, σ₁, h1, h2, h3, _, _, h4⟩ := unsync_spec hx hq hσ (ho o (by simp)) hf
    obtain ⟨s', rs, σ', h5, h6, h7, h', h8⟩ := ih (h4 0) hq h3 fun o' ho' => ho o' (by simp [ho'])
    refine ⟨s', r :: rs, σ', ?_, ⟨σ₁, h2, h6⟩, h7, _, by rw [List.append_assoc] at h8; exact h8⟩
    simp only [St.unsyncs, h1, h5]

/-- Three pushes, two pops and a pop on the emptied queue, without concurrency. -/
example : ((Conf.initial (α := Nat) ⟨4, false⟩ 1).s.unsyncs ⟨4, false⟩ 2
      [.push false 7, .push false 8, .pop, .pop, .pop]).map (·.2) =
    some [.pushed true, .pushed true, .popped (some 7), .popped (some 8), .popped none] := by rfl

end Verif.Queue
