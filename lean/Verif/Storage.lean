import Verif.Words
import Verif.Queue.Destroy

/-!
# Node arrays and size limits (C33, C36, C46)

Models the storages of the array-based freelist (freelist.hpp:333-394), the conversions between handles and pointers
(freelist.hpp:496-525), and the checks on sizes (freelist.hpp:337, 373-375; stack.hpp:102-104; queue.hpp:106, 229-269).
Addresses are natural numbers, objects do not wrap around the end of the address space.
-/

namespace Verif
open Lin

/-! ### C33: handles and pointers -/

/-- An array of `count` nodes of `size` bytes at address `base` (`nodes()`, `node_count()`). -/
structure NodeArray where
  base : Nat
  size : Nat
  count : Nat

namespace NodeArray

/-- Address of node `i`: `nodes() + i`. -/
def addr (A : NodeArray) (i : Nat) : Nat := A.base + i * A.size

/-- `null_handle` (freelist.hpp:496-499). -/
def nullHandle (A : NodeArray) : BitVec 16 := BitVec.ofNat 16 A.count

/-- `get_handle(T*)` (freelist.hpp:501-507); address 0 is the null pointer. -/
def getHandle (A : NodeArray) (p : Nat) : BitVec 16 :=
  if p = 0 then A.nullHandle else BitVec.ofNat 16 ((p - A.base) / A.size)

/-- `get_pointer(index_t)` (freelist.hpp:519-525). -/
def getPointer (A : NodeArray) (h : BitVec 16) : Nat :=
  if h = A.nullHandle then 0 else A.base + h.toNat * A.size

/-- The pointers that may be converted: null and those to nodes of the array. -/
def Ptr (A : NodeArray) (p : Nat) : Prop := p = 0 ∨ ∃ i, i < A.count ∧ p = A.addr i

/-- The handles in use: indices of nodes and the null handle. -/
def Hnd (A : NodeArray) (h : BitVec 16) : Prop := h.toNat ≤ A.count

/-- An array that can exist: it is not at address 0, nodes are not empty, and the size check has been passed. -/
structure Ok (A : NodeArray) : Prop where
  base : 0 < A.base
  size : 0 < A.size
  count : A.count ≤ 65535

variable {A : NodeArray}

theorem nullHandle_toNat (hA : A.Ok) : A.nullHandle.toNat = A.count := by
  have := hA.count
  simp [nullHandle]; omega

theorem getHandle_addr (hA : A.Ok) {i : Nat} (hi : i < A.count) : A.getHandle (A.addr i) = BitVec.ofNat 16 i := by
  have := hA.base
  rw [getHandle, if_neg (by simp [addr]; omega), addr, Nat.add_sub_cancel_left, Nat.mul_div_cancel _ hA.size]

theorem getPointer_index (hA : A.Ok) {i : Nat} (hi : i < A.count) : A.getPointer (BitVec.ofNat 16 i) = A.addr i := by
  have := hA.count
  have h1 : BitVec.ofNat 16 i ≠ A.nullHandle := by
    intro h; have := congrArg BitVec.toNat h; rw [nullHandle_toNat hA] at this; simp at this; omega
  have h2 : i % 65536 = i := Nat.mod_eq_of_lt (by omega)
  simp [getPointer, h1, addr, h2]

/-- **C33.** Converting a pointer to a handle and back gives the pointer, and the handle is one in use. -/
theorem pointer_roundtrip (hA : A.Ok) {p : Nat} (hp : A.Ptr p) : A.Hnd (A.getHandle p) ∧ A.getPointer (A.getHandle p) = p := by
  have := hA.count
  rcases hp with rfl | ⟨i, hi, rfl⟩
  · simp [getHandle, getPointer, Hnd, nullHandle_toNat hA]
  · rw [getHandle_addr hA hi, getPointer_index hA hi]
    refine ⟨?_, rfl⟩
    simp [Hnd]; omega

/-- **C33.** Converting a handle to a pointer and back gives the handle, and the pointer is null or points to a node. -/
theorem handle_roundtrip (hA : A.Ok) {h : BitVec 16} (hh : A.Hnd h) : A.Ptr (A.getPointer h) ∧ A.getHandle (A.getPointer h) = h := by
  by_cases hn : h = A.nullHandle
  · subst hn; simp [getPointer, Ptr, getHandle]
  · have h1 : h.toNat < A.count := by
      refine Nat.lt_of_le_of_ne hh fun he => hn ?_
      apply BitVec.eq_of_toNat_eq; rw [nullHandle_toNat hA, he]
    have h2 : A.getPointer h = A.addr h.toNat := by simp [getPointer, hn, addr]
    rw [h2, getHandle_addr hA h1]
    exact ⟨.inr ⟨_, h1, rfl⟩, by simp⟩

/-- **C33.** Null corresponds to null only. -/
theorem null_iff (hA : A.Ok) {h : BitVec 16} (hh : A.Hnd h) : A.getPointer h = 0 ↔ h = A.nullHandle := by
  constructor
  · intro h0
    have := (handle_roundtrip hA hh).2
    rw [h0] at this
    simpa [getHandle] using this.symm
  · rintro rfl; simp [getPointer]

/-- The `Words` of tagged indices use these conversions: a node number stands for the pointer to it. -/
theorem node_getPointer (hA : A.Ok) {h : BitVec 16} (hh : A.Hnd h) :
    A.getPointer h = (((indexWords A.count).node h).map A.addr).getD 0 := by
  by_cases hn : h = A.nullHandle
  · subst hn; simp [getPointer, indexWords, nullHandle]
  · have hn' : h ≠ BitVec.ofNat 16 A.count := hn
    simp [getPointer, hn, indexWords, hn', addr]

end NodeArray

/-! ### C33: size checks -/

/-- A value of type `std::size_t`. -/
abbrev Size := BitVec 64

/-- Constructor of `runtime_sized_freelist_storage` (freelist.hpp:368-378): throws (`none`), or makes that many nodes. -/
def runtimeStorage (count : Size) : Option Nat := if 65535#64 < count then none else some count.toNat

/-- `stack(size_type n)` for `fixed_sized<true>` (stack.hpp:180-214): number of nodes of the pool. -/
def stackFixed (n : Size) : Option Nat := runtimeStorage n

/-- `queue(size_type n)` for `fixed_sized<true>` (queue.hpp:229-269): `n + 1` is computed in `size_t`. -/
def queueFixed (n : Size) : Option Nat := runtimeStorage (n + 1)

/-- `capacity<N>` of a stack compiles: `capacity - 1 < 65535` (stack.hpp:102-104) and `size < 65536` (freelist.hpp:337). -/
def stackCompiles (N : Size) : Bool := decide (N - 1 < 65535#64) && decide (N < 65536#64)

/-- `capacity<N>` of a queue compiles: `size < 65536` for `size = N + 1` (queue.hpp:106, freelist.hpp:337). -/
def queueCompiles (N : Size) : Bool := decide (N + 1 < 65536#64)

/-- **C33.** A fixed-size stack can be constructed for every size up to 65535, and has that many nodes; above, construction throws. -/
theorem stackFixed_iff (n : Size) (k : Nat) : stackFixed n = some k ↔ n.toNat = k ∧ k ≤ 65535 := by
  unfold stackFixed runtimeStorage
  have h : (65535#64 < n) ↔ 65535 < n.toNat := by rw [BitVec.lt_def]; simp
  simp only [h]
  split <;> simp <;> omega

/-- **C33.** A fixed-size queue can be constructed for every size up to 65534, and has one node more; above, construction throws, with
one exception: for `SIZE_MAX` it succeeds, with a pool without nodes. -/
theorem queueFixed_iff (n : Size) (k : Nat) :
    queueFixed n = some k ↔ (n.toNat + 1 = k ∧ k ≤ 65535) ∨ (n.toNat = 2 ^ 64 - 1 ∧ k = 0) := by
  have hn := n.isLt
  have h := stackFixed_iff (n + 1) k
  simp only [stackFixed] at h
  rw [queueFixed, h, BitVec.toNat_add]
  simp
  omega

/-- **C33.** `stack<T, capacity<N>>` compiles exactly for `1 ≤ N ≤ 65535`. -/
theorem stackCompiles_iff (N : Size) : stackCompiles N = true ↔ 1 ≤ N.toNat ∧ N.toNat ≤ 65535 := by
  have hn := N.isLt
  simp only [stackCompiles, Bool.and_eq_true, decide_eq_true_eq, BitVec.lt_def, BitVec.toNat_sub]
  simp
  omega

/-- **C33.** `queue<T, capacity<N>>` compiles for `N ≤ 65534`, and for `N = SIZE_MAX`. -/
theorem queueCompiles_iff (N : Size) : queueCompiles N = true ↔ N.toNat ≤ 65534 ∨ N.toNat = 2 ^ 64 - 1 := by
  have hn := N.isLt
  simp only [queueCompiles, decide_eq_true_eq, BitVec.lt_def, BitVec.toNat_add]
  simp
  omega

/-- **C33 (`queue(SIZE_MAX)`).** The fixed-size queue with a pool without nodes: `initialize` stores null in `head_` and `tail_`; then
`pop` dereferences null (thread-safe or not), so neither `pop` nor the destructor has defined behaviour. -/
theorem queue_without_nodes {α : Type} (M : Nat) :
    let s : Queue.St α := Queue.St.ofHeap ⟨M, true⟩ (Heap.initial 0)
    (∃ k h, Alone (Queue.mach α ⟨M, true⟩) (fun _ _ _ => True) 0 k s .idle h s .err) ∧
    (∀ fuel, s.popU ⟨M, true⟩ fuel = none) ∧ ∀ vs s', ¬ Queue.Drain ⟨M, true⟩ s vs s' := by
  intro s
  have hh : s.head.ptr = none := rfl
  have hp : ∀ fuel, s.popU ⟨M, true⟩ fuel = none := by
    intro fuel; cases fuel with
    | zero => rfl
    | succ fuel => simp only [Queue.St.popU, hh]
  refine ⟨⟨4, [.inv 0 .pop], ?_⟩, hp, ?_⟩
  · exact .cons (ch := Queue.QChoice.base (Choice.call Queue.Op.pop)) (e := some (Event.inv 0 Queue.Op.pop)) (h := []) (p' := Queue.PC.cHead)
      rfl trivial <|
      .cons (ch := Queue.QChoice.base Choice.go) (e := none) (h := []) (p' := Queue.PC.cTail s.headSnap) rfl trivial <|
      .cons (ch := Queue.QChoice.base Choice.go) (e := none) (h := []) (p' := Queue.PC.cNext s.headSnap s.tailSnap) rfl trivial <|
      .cons (ch := Queue.QChoice.base Choice.go) (e := none) (h := []) rfl trivial (.nil _ _)
  · intro vs s' hd
    cases hd with
    | done h => rw [hp] at h; cases h
    | more h => rw [hp] at h; cases h

/-! ### C36: compile-time storage -/

/-- `boost::alignment::align_up` (used at freelist.hpp:351): the least multiple of `line` from `a` on. -/
def alignUp (a line : Nat) : Nat := (a + (line - 1)) / line * line

theorem alignUp_spec (a : Nat) {line : Nat} (h : 0 < line) : line ∣ alignUp a line ∧ a ≤ alignUp a line ∧ alignUp a line < a + line := by
  refine ⟨Nat.dvd_mul_left _ _, ?_⟩
  have h1 := Nat.div_add_mod (a + (line - 1)) line
  have h2 := Nat.mod_lt (a + (line - 1)) h
  rw [Nat.mul_comm] at h1
  unfold alignUp
  omega

/-- A `compiletime_sized_freelist_storage<T, size>` (freelist.hpp:333-358) at address `at`: `count * size + 64` bytes of `data`, the
first member. `line` is `BOOST_LOCKFREE_CACHELINE_BYTES` (prefix.hpp:16-22). -/
structure CtStorage where
  addr : Nat
  count : Nat
  size : Nat
  line : Nat

/-- Size of the member `data` (freelist.hpp:339). -/
def CtStorage.bytes (S : CtStorage) : Nat := S.count * S.size + 64

/-- `nodes()` (freelist.hpp:348-352). -/
def CtStorage.nodes (S : CtStorage) : NodeArray := ⟨alignUp S.addr S.line, S.size, S.count⟩

/-- All bytes of all nodes are bytes of `data`. -/
def CtStorage.Inside (S : CtStorage) : Prop :=
  ∀ i, i < S.count → ∀ b, b < S.size → S.addr ≤ S.nodes.addr i + b ∧ S.nodes.addr i + b < S.addr + S.bytes

/-- All nodes are inside exactly if alignment skips at most 64 bytes (if there is a node at all). -/
theorem CtStorage.inside_iff (S : CtStorage) (hl : 0 < S.line) (hc : 0 < S.count) (hs : 0 < S.size) :
    S.Inside ↔ alignUp S.addr S.line ≤ S.addr + 64 := by
  have h1 := alignUp_spec S.addr hl
  constructor
  · intro h
    have h2 := (h (S.count - 1) (by omega) (S.size - 1) (by omega)).2
    have h3 : (S.count - 1) * S.size + S.size = S.count * S.size := by
      rw [← Nat.succ_mul]; congr 1; omega
    simp only [nodes, NodeArray.addr, bytes] at h2
    omega
  · intro h i hi b hb
    have h3 : i * S.size + S.size ≤ S.count * S.size := by
      rw [← Nat.succ_mul]; exact Nat.mul_le_mul_right _ hi
    simp only [nodes, NodeArray.addr, bytes]
    omega

/-- **C36.** With 64-byte cache lines all nodes are inside the storage, wherever the object is placed. -/
theorem CtStorage.inside_64 (S : CtStorage) (hl : S.line = 64) : S.Inside := by
  have h1 := alignUp_spec S.addr (line := S.line) (by omega)
  intro i hi b hb
  have h3 : i * S.size + S.size ≤ S.count * S.size := by
    rw [← Nat.succ_mul]; exact Nat.mul_le_mul_right _ hi
  simp only [nodes, NodeArray.addr, bytes]
  omega

/-- **C36.** With cache lines of any size, all nodes are inside if the object is aligned to the cache line, as its declaration
(`BOOST_ALIGNMENT`, freelist.hpp:334) demands. -/
theorem CtStorage.inside_aligned (S : CtStorage) (hl : 0 < S.line) (ha : S.line ∣ S.addr) : S.Inside := by
  have h1 := alignUp_spec S.addr hl
  have h2 : alignUp S.addr S.line = S.addr := by
    obtain ⟨k, hk⟩ := ha
    obtain ⟨j, hj⟩ := h1.1
    rw [hj] at h1 ⊢
    rw [hk] at h1
    have h3 : S.line * j < S.line * (k + 1) := by rw [Nat.mul_add]; omega
    have h4 := Nat.lt_of_mul_lt_mul_left h3
    have h5 := Nat.le_of_mul_le_mul_left h1.2.1 hl
    rw [hk, show j = k by omega]
  intro i hi b hb
  have h3 : i * S.size + S.size ≤ S.count * S.size := by
    rw [← Nat.succ_mul]; exact Nat.mul_le_mul_right _ hi
  simp only [nodes, NodeArray.addr, bytes, h2]
  omega

/-- **C36.** With 128- or 256-byte cache lines and an object that is not aligned (as `operator new` of C++03/11 may place it), the last
node reaches beyond the storage exactly if more than 64 bytes are skipped. -/
theorem CtStorage.outside_iff (S : CtStorage) (hl : 0 < S.line) (hc : 0 < S.count) (hs : 0 < S.size) :
    ¬ S.Inside ↔ 0 < S.addr % S.line ∧ S.addr % S.line + 64 < S.line := by
  rw [S.inside_iff hl hc hs]
  have h1 := alignUp_spec S.addr hl
  have h2 := Nat.div_add_mod S.addr S.line
  have h3 := Nat.mod_lt S.addr hl
  obtain ⟨j, hj⟩ := h1.1
  rw [hj] at h1 ⊢
  by_cases h0 : S.addr % S.line = 0
  · have h4 : S.line * j < S.line * (S.addr / S.line + 1) := by rw [Nat.mul_add]; omega
    have h5 := Nat.lt_of_mul_lt_mul_left h4
    have h6 : S.line * j ≤ S.line * (S.addr / S.line) := Nat.mul_le_mul_left _ (by omega)
    omega
  · have h4 : S.line * (S.addr / S.line) < S.line * j := by omega
    have h5 := Nat.lt_of_mul_lt_mul_left h4
    have h6 : S.line * j < S.line * (S.addr / S.line + 2) := by rw [Nat.mul_add]; omega
    have h7 := Nat.lt_of_mul_lt_mul_left h6
    have h8 : j = S.addr / S.line + 1 := by omega
    rw [h8, Nat.mul_add]
    omega

/-- An object at an address that is a multiple of 16 only, 256-byte lines: the node is outside. -/
example : ¬ (CtStorage.mk 0x1010 1 256 256).Inside := by
  rw [CtStorage.outside_iff _ (by decide) (by decide) (by decide)]; decide

/-! ### C46: alignment of the links -/

/-- Every node is aligned to `al` bytes. -/
def NodeArray.Aligned (A : NodeArray) (al : Nat) : Prop := ∀ i, i < A.count → al ∣ A.addr i

/-- Nodes are aligned if array and node size are, and only then if there are at least two. -/
theorem NodeArray.aligned_iff {A : NodeArray} {al : Nat} (hc : 2 ≤ A.count) : A.Aligned al ↔ al ∣ A.base ∧ al ∣ A.size := by
  constructor
  · intro h
    have h0 := h 0 (by omega)
    have h1 := h 1 (by omega)
    simp only [addr, Nat.zero_mul, Nat.add_zero, Nat.one_mul] at h0 h1
    exact ⟨h0, (Nat.dvd_add_right h0).1 h1⟩
  · rintro ⟨h1, h2⟩ i _
    exact Nat.dvd_add h1 (Nat.dvd_mul_left_of_dvd h2 i)

/-- `sizeof` a node of a fixed-size stack (stack.hpp:85-95): a 16-bit index followed by the payload of `sz` bytes aligned to `al`,
padded to the alignment of the node. -/
def stackNodeSize (sz al : Nat) : Nat := alignUp (alignUp 2 al + sz) (max 2 al)

/-- `sizeof` a node of a queue (queue.hpp:112-134): aligned to the cache line; first the link word of `lw` bytes. -/
def queueNodeSize (lw sz al line : Nat) : Nat := alignUp (alignUp lw al + sz) line

/-- **C46.** The link of the freelist (`tagged_index`, 4 bytes) fits into every node of a fixed-size stack. -/
theorem stackNode_holds_link {sz al : Nat} (hsz : 0 < sz) (hal : 0 < al) : 4 ≤ stackNodeSize sz al := by
  have h1 := alignUp_spec 2 hal
  have h2 := alignUp_spec (alignUp 2 al + sz) (line := max 2 al) (by omega)
  unfold stackNodeSize
  obtain ⟨k, hk⟩ := h2.1
  rw [hk] at h2 ⊢
  have h3 : 3 ≤ max 2 al * k := by omega
  by_cases hk1 : k ≤ 1
  · have : max 2 al * k ≤ max 2 al * 1 := Nat.mul_le_mul_left _ hk1
    have h4 : 1 ≤ k := by
      rcases Nat.eq_zero_or_pos k with h | h
      · subst h; simp at h3
      · exact h
    have h5 : k = 1 := by omega
    subst h5
    by_cases h6 : al ≤ 2
    · rw [Nat.max_eq_left h6] at h3; omega
    · rw [Nat.max_eq_right (by omega)] at h2 h3 ⊢
      have h7 : al * 1 ≠ 3 := by
        intro h8
        have h9 : al = 3 := by omega
        subst h9
        simp [alignUp] at h2
        omega
      omega
  · have : max 2 al * 2 ≤ max 2 al * k := Nat.mul_le_mul_left _ (by omega)
    omega

/-- **C46.** The link fits into every node of a queue. -/
theorem queueNode_holds_link {lw sz al line : Nat} (hlw : 4 ≤ lw) (hal : 0 < al) (hl : 0 < line) : 4 ≤ queueNodeSize lw sz al line := by
  have h1 := alignUp_spec lw hal
  have h2 := alignUp_spec (alignUp lw al + sz) hl
  unfold queueNodeSize
  omega

/-- **C46.** For a payload aligned to a multiple of 4 bytes the nodes of a fixed-size stack are suitably aligned for `tagged_index`
(`BOOST_ALIGNMENT(4)`, freelist.hpp:260). -/
theorem stackNode_aligned {A : NodeArray} {sz al : Nat} (hal : 4 ∣ al) (h0 : 0 < al) (hb : 4 ∣ A.base)
    (hs : A.size = stackNodeSize sz al) : A.Aligned 4 := by
  intro i _
  refine Nat.dvd_add hb (Nat.dvd_mul_left_of_dvd ?_ i)
  rw [hs, stackNodeSize]
  have h2 := alignUp_spec (alignUp 2 al + sz) (line := max 2 al) (by omega)
  have h3 : max 2 al = al := Nat.max_eq_right (by have := Nat.le_of_dvd h0 hal; omega)
  rw [h3] at h2 ⊢
  exact Nat.dvd_trans hal h2.1

/-- **C46.** For a payload of three bytes without alignment requirement they are not: the links of all nodes with odd index are
misaligned (undefined behaviour, though harmless where 16-bit accesses suffice). -/
theorem stackNode_misaligned {A : NodeArray} (hb : 4 ∣ A.base) (hs : A.size = stackNodeSize 3 1) {i : Nat} (hi : i % 2 = 1) :
    ¬ 4 ∣ A.addr i := by
  have h1 : A.size = 6 := by rw [hs]; decide
  rw [NodeArray.addr, h1]
  omega

/-- **C46.** Nodes of queues are aligned to the cache line, as the array is. -/
theorem queueNode_aligned {A : NodeArray} {lw sz al line : Nat} (hl : 0 < line) (hb : line ∣ A.base)
    (hs : A.size = queueNodeSize lw sz al line) : A.Aligned line := by
  intro i _
  refine Nat.dvd_add hb (Nat.dvd_mul_left_of_dvd ?_ i)
  rw [hs, queueNodeSize]
  exact (alignUp_spec _ hl).1

/-- The array of a compile-time sized freelist is aligned to the cache line. -/
theorem CtStorage.nodes_aligned (S : CtStorage) (hl : 0 < S.line) : S.line ∣ S.nodes.base := (alignUp_spec S.addr hl).1

end Verif
