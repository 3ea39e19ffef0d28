import Verif.Lin

/-!
# The node heap and the freelist (model)

Models `include/boost/lockfree/detail/freelist.hpp`. Both freelists of the library
(`freelist_stack`, lines 37-258, and `fixed_size_freelist`, lines 397-614) run the same algorithm on
different handle types (tagged pointers / tagged 16-bit indices); here a handle is an `Option Nat`, `none`
being the null handle (`NULL` resp. index `node_count`; the encodings are treated in `Verif.Storage`).
The freelist stores its link in the first word of a free node, which is the same word that stack and queue
nodes use as `next` (stack.hpp:92, queue.hpp:132); so the heap has one `next` word per node.
-/

namespace Verif
open Lin

/-- A tagged handle: `tagged_index` (freelist.hpp:260-331), `tagged_ptr`
(tagged_ptr_dcas.hpp:20-137, tagged_ptr_ptrcompression.hpp:22-163) seen as a (handle, tag) pair;
that the compressed representation is such a pair is `Verif.Tagged`. -/
structure Tagged where
  ptr : Option Nat
  tag : Nat
deriving DecidableEq, Repr

/-- Configuration: the number `M` of tag values (`2^16` for `tagged_index` and compressed `tagged_ptr`,
`2^64` for DCAS; `0` stands for an ideal tag that never wraps), and whether the array-based freelist is
used (`has_capacity || fixed_sized`, stack.hpp:82, queue.hpp:108, freelist.hpp:623-625). -/
structure Cfg where
  M : Nat
  fixed : Bool

/-- `get_next_tag` (freelist.hpp:306-310, tagged_ptr_dcas.hpp:104-108,
tagged_ptr_ptrcompression.hpp:130-134): increment modulo the number of tags. -/
def Cfg.nextTag (cfg : Cfg) (t : Nat) : Nat := (t + 1) % cfg.M

/-- A local copy of a tagged word (`old_pool`, `old_tos`, `head`, `tail`, ...). `ver` is a ghost: the number
of tag increments the word had undergone when it was read. No step of the program branches on `ver`. -/
structure Snap where
  v : Tagged
  ver : Nat
deriving DecidableEq, Repr

/-- Shared memory of the nodes and of the freelist.
* `next n` is the first word of node `n`: the freelist link (freelist.hpp:40-43, 400-403) and the `next`
  member of stack nodes (stack.hpp:92; the tag part is not used there) and queue nodes (queue.hpp:132).
* `data n` is the payload subobject, `none` when no live object is there.
* `nalloc` nodes, numbered from 0, have been obtained from the allocator or are in the array.
* `pool` is `pool_` (freelist.hpp:257, 613).
* `poolVer`, `nver` are ghosts counting the tag increments of `pool` and of `next n`. -/
structure Heap (α : Type) where
  next : Nat → Tagged
  nver : Nat → Nat
  data : Nat → Option α
  nalloc : Nat
  pool : Tagged
  poolVer : Nat

variable {α Op : Type}

/-- Resolution of the nondeterminism of one step: the client calls an operation; the step proceeds
normally; `compare_exchange_weak` fails spuriously; a non-atomic read racing with another thread returns an
arbitrary handle; the user's code or the allocator throws. -/
inductive Choice (Op : Type) where
  | call (o : Op)
  | go
  | spur
  | racy (x : Option Nat)
  | throw

def Heap.poolSnap (h : Heap α) : Snap := ⟨h.pool, h.poolVer⟩

/-- `set_ptr` / `set_index` on the first word of node `n` (freelist.hpp:238, 252, 595, 608;
tagged_ptr_dcas.hpp:91-94, tagged_ptr_ptrcompression.hpp:116-120): the tag part is kept. Also the plain
assignment `node->next = p` of stack nodes. -/
def Heap.setNextPtr (h : Heap α) (n : Nat) (p : Option Nat) : Heap α :=
  { h with next := upd h.next n ⟨p, (h.next n).tag⟩ }

/-- `Alloc::allocate(1)` followed by `memset(0)` (freelist.hpp:57-58, 71-72, 180-181, 204-205): a node never
handed out before. -/
def Heap.malloc (h : Heap α) : Heap α :=
  { h with
    nalloc := h.nalloc + 1
    next := upd h.next h.nalloc ⟨none, 0⟩
    nver := upd h.nver h.nalloc 0
    data := upd h.data h.nalloc none }

/-- Construct (`some v`) or destroy (`none`) the payload of node `n`. -/
def Heap.setData (h : Heap α) (n : Nat) (d : Option α) : Heap α :=
  { h with data := upd h.data n d }

/-! ### `allocate_impl` -/

/-- Program counters of `allocate_impl` (freelist.hpp:173-195 and 543-560). -/
inductive APC where
  /-- about to execute `old_pool = pool_.load()` (line 175 / 545) -/
  | load
  /-- loop head with `old_pool` (lines 178-187 / 548-553): null test, else read of `old_pool->next` -/
  | test (o : Snap)
  /-- about to execute `pool_.compare_exchange_weak(old_pool, new_pool)` (line 190 / 557) -/
  | cas (o : Snap) (nx : Option Nat)

inductive ARes where
  | more (a : APC)
  | got (n : Nat)
  | null
  | badAlloc

/-- One step of `allocate_impl<Bounded>`. The read of `old_pool->next` (line 187 / 553-555) is not
atomic and races with a new owner of the node if the node has been allocated since `old_pool` was loaded
(which increments the tag): it may then return anything. -/
def aStep (cfg : Cfg) (bounded : Bool) (h : Heap α) : APC → Choice Op → Option (Heap α × ARes)
  | .load, .go => some (h, .more (.test h.poolSnap))
  | .test o, c =>
    match o.v.ptr with
    | none =>
      if cfg.fixed || bounded then
        match c with
        | .go => some (h, .null)
        | _ => none
      else
        match c with
        | .go => some (h.malloc, .got h.nalloc)
        | .throw => some (h, .badAlloc)
        | _ => none
    | some n =>
      match c with
      | .go => some (h, .more (.cas o (h.next n).ptr))
      | .racy x => if h.poolVer = o.ver then none else some (h, .more (.cas o x))
      | _ => none
  | .cas o nx, .go =>
    if h.pool = o.v then
      match o.v.ptr with
      | none => none
      | some n =>
        some ({ h with pool := ⟨nx, cfg.nextTag o.v.tag⟩, poolVer := h.poolVer + 1 }, .got n)
    else some (h, .more (.test h.poolSnap))
  | .cas _ _, .spur => some (h, .more (.test h.poolSnap))
  | _, _ => none

/-- At a compare-exchange of `allocate_impl`, the tag of `pool_` has not wrapped completely since
`old_pool` was loaded. -/
def aFresh (cfg : Cfg) (h : Heap α) : APC → Prop
  | .cas o _ => cfg.M = 0 ∨ h.poolVer < o.ver + cfg.M
  | _ => True

/-! ### `deallocate_impl` -/

/-- Program counters of `deallocate_impl` (freelist.hpp:230-243 and 588-600). -/
inductive DPC where
  /-- about to load `pool_` (line 233 / 591) -/
  | load
  /-- about to write the node's link, `new_pool->next.set_ptr(old_pool.get_ptr())` (line 238 / 595) -/
  | set (o : Snap)
  /-- about to compare-exchange `pool_` (line 240 / 597) -/
  | cas (o : Snap)

/-- One step of `deallocate_impl(n)`; result `none` in the second component: finished. -/
def dStep (h : Heap α) (n : Nat) : DPC → Choice Op → Option (Heap α × Option DPC)
  | .load, .go => some (h, some (.set h.poolSnap))
  | .set o, .go => some (h.setNextPtr n o.v.ptr, some (.cas o))
  | .cas o, .go =>
    if h.pool = o.v then some ({ h with pool := ⟨some n, o.v.tag⟩ }, none)
    else some (h, some (.set h.poolSnap))
  | .cas _, .spur => some (h, some (.set h.poolSnap))
  | _, _ => none

/-! ### Unsynchronized versions and construction -/

/-- `deallocate_impl_unsafe` (freelist.hpp:245-255, 602-611). -/
def Heap.deallocUnsafe (h : Heap α) (n : Nat) : Heap α :=
  { h.setNextPtr n h.pool.ptr with pool := ⟨some n, h.pool.tag⟩ }

/-- `allocate_impl_unsafe<Bounded>` (freelist.hpp:198-217, 562-577). -/
def Heap.allocUnsafe (cfg : Cfg) (bounded : Bool) (h : Heap α) : Heap α × Option Nat :=
  match h.pool.ptr with
  | none => if cfg.fixed || bounded then (h, none) else (h.malloc, some h.nalloc)
  | some n =>
    ({ h with pool := ⟨(h.next n).ptr, cfg.nextTag h.pool.tag⟩, poolVer := h.poolVer + 1 }, some n)

/-- A heap without nodes. -/
def Heap.empty : Heap α :=
  { next := fun _ => ⟨none, 0⟩, nver := fun _ => 0, data := fun _ => none, nalloc := 0,
    pool := ⟨none, 0⟩, poolVer := 0 }

/-- Constructors of the freelists (freelist.hpp:52-65; 405-430): `n` nodes are obtained one after the other
and pushed on the freelist. Also the loop of `reserve<false>` (lines 67-75). -/
def Heap.addNodes (h : Heap α) : Nat → Heap α
  | 0 => h
  | k + 1 => ((h.addNodes k).malloc).deallocUnsafe (h.addNodes k).nalloc

theorem Heap.addNodes_front (h : Heap α) (k : Nat) :
    h.addNodes (k + 1) = ((h.malloc).deallocUnsafe h.nalloc).addNodes k := by
  induction k with
  | zero => rfl
  | succ k ih => rw [Heap.addNodes, ih]; rfl

def Heap.initial (n : Nat) : Heap α := (Heap.empty).addNodes n

end Verif
