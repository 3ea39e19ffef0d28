import Verif.Storage

/-!
# Policies and construction of pools (C37)

Models the evaluation of template arguments (parameter.hpp:25-70; stack.hpp:79-83; queue.hpp:105-109; spsc_queue.hpp:674-689), the
selection of freelist and handles (freelist.hpp:616-634), and the constructor of the array-based freelist (freelist.hpp:405-430) on
stored words. Allocators are not modelled.
-/

namespace Verif
open Lin

/-- The policies given as template arguments: `capacity<N>` and `fixed_sized<b>`, each at most once, in any order. -/
structure Policy where
  cap : Option Nat
  fixed : Option Bool

/-- Handle types (freelist.hpp:628-634). -/
inductive HandleKind where
  | taggedPtr
  | taggedIndex
  deriving DecidableEq

/-- Storage types (freelist.hpp:619-621). -/
inductive StorageKind where
  | compileTime (size : Nat)
  | runtime
  deriving DecidableEq

/-- Freelist types (freelist.hpp:623-625). -/
inductive PoolKind where
  | array (s : StorageKind)
  | allocating
  deriving DecidableEq

namespace Policy

/-- `extract_capacity::has_capacity` (parameter.hpp:37). -/
def hasCapacity (P : Policy) : Bool := P.cap.isSome

/-- `extract_capacity::capacity` (parameter.hpp:39-43). -/
def capacity (P : Policy) : Nat := P.cap.getD 0

/-- `extract_fixed_sized::value` (parameter.hpp:61-69), default `false`. -/
def fixedSized (P : Policy) : Bool := P.fixed.getD false

/-- `node_based` (stack.hpp:82, queue.hpp:108). -/
def nodeBased (P : Policy) : Bool := !(P.hasCapacity || P.fixedSized)

/-- `compile_time_sized` (stack.hpp:83, queue.hpp:109). -/
def compileTimeSized (P : Policy) : Bool := P.hasCapacity

end Policy

/-- `select_freelist` (freelist.hpp:616-626). -/
def selectFreelist (compileTime fixed : Bool) (cap : Nat) : PoolKind :=
  let storage := if compileTime then StorageKind.compileTime cap else .runtime
  if compileTime || fixed then .array storage else .allocating

/-- `select_tagged_handle` (freelist.hpp:628-634). -/
def selectHandle (nodeBased : Bool) : HandleKind := if nodeBased then .taggedPtr else .taggedIndex

/-- `tagged_node_handle` of the freelists (freelist.hpp:49, 421). -/
def PoolKind.handle : PoolKind → HandleKind
  | .array _ => .taggedIndex
  | .allocating => .taggedPtr

/-- `pool_t` of the stack (stack.hpp:98-99). -/
def stackPool (P : Policy) : PoolKind := selectFreelist P.compileTimeSized P.fixedSized P.capacity

/-- `pool_t` of the queue (queue.hpp:106, 137-138); `capacity` is one more than requested. -/
def queuePool (P : Policy) : PoolKind := selectFreelist P.compileTimeSized P.fixedSized (P.capacity + 1)

/-- `ringbuffer_type` of `spsc_queue` (spsc_queue.hpp:674-689): `none` for the run-time sized one, else its capacity. -/
def spscRing (P : Policy) : Option Nat := if !P.hasCapacity then none else some P.capacity

/-- Array-based storage was requested. -/
def Policy.WantsArray (P : Policy) : Prop := (∃ N, P.cap = some N) ∨ P.fixed = some true

theorem Policy.nodeBased_iff (P : Policy) : P.nodeBased = false ↔ P.WantsArray := by
  rcases P with ⟨_ | N, _ | b⟩ <;> simp [nodeBased, hasCapacity, fixedSized, WantsArray]

/-- **C37.** A stack uses the array-based freelist exactly if `capacity<N>` or `fixed_sized<true>` was given; nodes link by tagged
indices exactly then; and the handles of nodes are those of the freelist. -/
theorem stack_policy (P : Policy) :
    ((∃ s, stackPool P = .array s) ↔ P.WantsArray) ∧ (stackPool P = .allocating ↔ ¬ P.WantsArray) ∧
    (selectHandle P.nodeBased = .taggedIndex ↔ P.WantsArray) ∧ selectHandle P.nodeBased = (stackPool P).handle := by
  rcases P with ⟨_ | N, _ | _ | _⟩ <;>
    simp [stackPool, selectFreelist, selectHandle, Policy.nodeBased, Policy.hasCapacity, Policy.fixedSized, Policy.WantsArray,
      Policy.compileTimeSized, PoolKind.handle]

/-- **C37.** The same for queues. -/
theorem queue_policy (P : Policy) :
    ((∃ s, queuePool P = .array s) ↔ P.WantsArray) ∧ (queuePool P = .allocating ↔ ¬ P.WantsArray) ∧
    (selectHandle P.nodeBased = .taggedIndex ↔ P.WantsArray) ∧ selectHandle P.nodeBased = (queuePool P).handle := by
  rcases P with ⟨_ | N, _ | _ | _⟩ <;>
    simp [queuePool, selectFreelist, selectHandle, Policy.nodeBased, Policy.hasCapacity, Policy.fixedSized, Policy.WantsArray,
      Policy.compileTimeSized, PoolKind.handle]

/-- **C37.** With `capacity<N>` the pool of a stack has `N` nodes, that of a queue `N + 1`, the ring buffer has capacity `N`, whatever
`fixed_sized` says. Without it the number is determined at run time. -/
theorem policy_capacity (P : Policy) (N : Nat) :
    (stackPool P = .array (.compileTime N) ↔ P.cap = some N) ∧ (queuePool P = .array (.compileTime (N + 1)) ↔ P.cap = some N) ∧
    (spscRing P = some N ↔ P.cap = some N) ∧
    (stackPool P = .array .runtime ↔ P.cap = none ∧ P.fixed = some true) ∧
    (queuePool P = .array .runtime ↔ P.cap = none ∧ P.fixed = some true) ∧ (spscRing P = none ↔ P.cap = none) := by
  rcases P with ⟨_ | M, _ | _ | _⟩ <;>
    simp [stackPool, queuePool, spscRing, selectFreelist, Policy.hasCapacity, Policy.fixedSized, Policy.capacity,
      Policy.compileTimeSized]

/-- `capacity<N>` prevails over `fixed_sized<false>`. -/
example : queuePool ⟨some 10, some false⟩ = .array (.compileTime 11) := rfl

/-! ### Construction of the array-based freelist -/

/-- The link words and `pool_` of an array-based freelist. -/
structure IndexWords where
  next : Nat → Pair 16 16
  pool : Pair 16 16

/-- Constructor of `fixed_size_freelist` with argument `arg` (freelist.hpp:424-430), and the first `i` rounds of `initialize`
(freelist.hpp:405-418) with `deallocate_impl_unsafe` (602-611), on a storage of `count` nodes filled with zeros (freelist.hpp:345, 377). -/
def indexInit (count arg : Nat) : Nat → IndexWords
  | 0 => ⟨fun _ => ⟨0, 0⟩, ⟨BitVec.ofNat 16 arg, 0⟩⟩
  | i + 1 =>
    let w := indexInit count arg i
    let link := (w.next i).setPtr (BitVec.ofNat 16 count)
    ⟨upd w.next i (link.setPtr w.pool.ptr), ⟨BitVec.ofNat 16 i, w.pool.tag⟩⟩

/-- **C37.** The constructor of the array-based freelist leaves the words of the freelist the models of stack and queue start with:
all `count` nodes, linked, the last to null. -/
theorem index_init {α : Type} (count : Nat) :
    Stored (indexWords count) (BitVec.ofNat 16) (· < count) (Heap.initial (α := α) count)
      ⟨(indexInit count count count).next, (indexInit count count count).pool⟩ := by
  have key : ∀ i, (Stored (indexWords count) (BitVec.ofNat 16) (· < i) (Heap.initial (α := α) i)
      ⟨(indexInit count count i).next, (indexInit count count i).pool⟩) ∧
      ∀ m, i ≤ m → (indexInit count count i).next m = ⟨0, 0⟩ := by
    intro i
    induction i with
    | zero => exact ⟨⟨rfl, fun n hn => absurd hn (Nat.not_lt_zero n)⟩, fun _ _ => rfl⟩
    | succ i ih =>
      obtain ⟨⟨h1, h2⟩, h3⟩ := ih
      simp only at h1 h2
      have hn : (Heap.initial (α := α) i).nalloc = i := by simp [Heap.initial, Heap.addNodes_nalloc, Heap.empty]
      have ha : Heap.initial (α := α) (i + 1) = ((Heap.initial i).malloc).deallocUnsafe i := by
        rw [show Heap.initial (α := α) (i + 1) = ((Heap.initial i).malloc).deallocUnsafe (Heap.initial (α := α) i).nalloc from rfl,
          hn]
      refine ⟨⟨?_, fun n hlt => ?_⟩, fun m hm => ?_⟩
      · rw [ha]
        show (⟨BitVec.ofNat 16 i, (indexInit count count i).pool.tag⟩ : Pair 16 16) = _
        rw [h1]
        rfl
      · rw [ha]
        by_cases hni : n = i
        · subst hni
          simp only [indexInit, upd_self]
          rw [h3 n (Nat.le_refl _), h1]
          simp [Heap.deallocUnsafe, Heap.setNextPtr, Heap.malloc, hn, Pair.setPtr, Words.enc, indexWords]
        · simp only [indexInit, upd_ne _ _ _ hni]
          rw [h2 n (by omega)]
          simp [Heap.deallocUnsafe, Heap.setNextPtr, Heap.malloc, hn, upd_ne _ _ _ hni]
      · simp only [indexInit]
        rw [upd_ne _ _ _ (by omega), h3 m (by omega)]
  exact (key count).1

/-- **C37 (precondition).** Constructing a structure that has `capacity<N>` with a run-time size `arg` below the number of nodes, which
only a debug assertion prevents (stack.hpp:180-187, queue.hpp:229-238): the freelist ends at node `arg` instead of null, so every link
leads to a node, the list never becomes empty, and nodes in use will be handed out again. -/
theorem index_init_mismatch {count arg : Nat} (hc : count ≤ 65535) (ha : arg < count) {n : Nat} (hn : n < count) :
    ∃ m, m < count ∧ (indexWords count).node ((indexInit count arg count).next n).ptr = some m := by
  have key : ∀ i, i ≤ count →
      (∃ m, m < count ∧ (indexInit count arg i).pool.ptr = BitVec.ofNat 16 m) ∧
      ∀ n, n < i → ∃ m, m < count ∧ ((indexInit count arg i).next n).ptr = BitVec.ofNat 16 m := by
    intro i
    induction i with
    | zero => exact fun _ => ⟨⟨arg, ha, rfl⟩, fun n h => absurd h (Nat.not_lt_zero n)⟩
    | succ i ih =>
      intro hi
      obtain ⟨h1, h2⟩ := ih (by omega)
      refine ⟨⟨i, by omega, rfl⟩, fun n hni => ?_⟩
      simp only [indexInit]
      by_cases h : n = i
      · subst h
        obtain ⟨m, h3, h4⟩ := h1
        exact ⟨m, h3, by rw [upd_self]; exact h4⟩
      · rw [upd_ne _ _ _ h]; exact h2 n (by omega)
  obtain ⟨m, h1, h2⟩ := (key count (Nat.le_refl _)).2 n hn
  refine ⟨m, h1, ?_⟩
  have h3 : BitVec.ofNat 16 m ≠ BitVec.ofNat 16 count := by
    intro h; have := congrArg BitVec.toNat h; simp at this; omega
  have h4 : m % 65536 = m := Nat.mod_eq_of_lt (by omega)
  simp [indexWords, h2, h3, h4]

end Verif
