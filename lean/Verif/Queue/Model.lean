import Verif.Heap
import Verif.Mach
import Verif.Queue.Spec

/-!
# Model of `include/boost/lockfree/queue.hpp` (thread-safe interface)

One small step per access to shared memory; sequentially consistent interleaving for the atomic words `head_`,
`tail_`, `next` and `pool_`. Reads of a node that may have been recycled return arbitrary values;
`compare_exchange_weak` may fail spuriously; allocator, copy constructor and the conversion in `pop` may throw.
-/

namespace Verif.Queue
open Lin

variable {α : Type}

/-- Shared state: nodes and freelist, `head_` and `tail_` (queue.hpp:576, 579) with ghost versions. -/
structure St (α : Type) where
  heap : Heap α
  head : Tagged
  headVer : Nat
  tail : Tagged
  tailVer : Nat

def St.headSnap (s : St α) : Snap := ⟨s.head, s.headVer⟩
def St.tailSnap (s : St α) : Snap := ⟨s.tail, s.tailVer⟩
def St.nextSnap (s : St α) (n : Nat) : Snap := ⟨s.heap.next n, s.heap.nver n⟩

/-- Resolution of nondeterminism: as for the freelist and, in addition, an arbitrary value for a racing read of
a payload (`garbage`) or of a link word that the freelist writes non-atomically (`torn`). In `empty()` the choice
`.base .spur` selects the other order of evaluation. -/
inductive QChoice (α : Type) where
  | base (c : Choice (Op α))
  | garbage (v : α)
  | torn (x : Tagged)

/-- Where a swing of `tail_` continues: retry the push of node `n` (queue.hpp:361), return from a push
(queue.hpp:356-357), retry the pop (queue.hpp:436). -/
inductive TailK where
  | retryPush (n : Nat)
  | donePush
  | retryPop

/-- Where `deallocate` was called from: `pop` (queue.hpp:450) or `reserve` (freelist.hpp:73). -/
inductive FreeK (α : Type) where
  | pop (v : α)
  | rsv (k : Nat)

/-- Program counters of a thread. -/
inductive PC (α : Type) where
  | idle
  /-- in `pool.allocate` called by `construct` (queue.hpp:338; freelist.hpp:98, 465) -/
  | alloc (b : Bool) (v : α) (a : APC)
  /-- node constructor, `data( v )` (queue.hpp:117) -/
  | constr (b : Bool) (v : α) (n : Nat)
  /-- node constructor, `next.load()` (queue.hpp:120) -/
  | nload (b : Bool) (v : α) (n : Nat)
  /-- node constructor, `next.store(new_next)` (queue.hpp:121-122) -/
  | nstore (b : Bool) (v : α) (n : Nat) (o : Tagged)
  /-- `tail = tail_.load()` (queue.hpp:345) -/
  | pTail (n : Nat)
  /-- `next = tail_node->next.load()` (queue.hpp:347) -/
  | pNext (n : Nat) (T : Snap)
  /-- `tail2 = tail_.load()` and the tests (queue.hpp:350-352) -/
  | pCheck (n : Nat) (T N : Snap)
  /-- `tail_node->next.compare_exchange_weak(next, new_tail_next)` (queue.hpp:354) -/
  | pCas (n : Nat) (T N : Snap)
  /-- `tail_.compare_exchange_strong(tail, new_tail)` with new tail `y` (queue.hpp:356, 361, 436) -/
  | swing (k : TailK) (T : Snap) (y : Nat)
  /-- `head = head_.load()` (queue.hpp:422) -/
  | cHead
  /-- `tail = tail_.load()` (queue.hpp:425) -/
  | cTail (H : Snap)
  /-- `next = head_ptr->next.load()` (queue.hpp:426) -/
  | cNext (H T : Snap)
  /-- `head2 = head_.load()` and the tests (queue.hpp:429-445) -/
  | cCheck (H T N : Snap)
  /-- `copy_payload(next_ptr->data, ret)` (queue.hpp:446) -/
  | cData (H : Snap) (y : Nat)
  /-- `head_.compare_exchange_weak(head, new_head)` (queue.hpp:449) -/
  | cCas (H : Snap) (y : Nat) (v : α)
  /-- `destruct(head)` (queue.hpp:450): run the (trivial) destructor -/
  | cDestroy (n : Nat) (v : α)
  /-- in `deallocate` -/
  | free (k : FreeK α) (n : Nat) (d : DPC)
  /-- `empty`, first load (queue.hpp:303): `head_`, or `tail_` since the operands of `==` may be evaluated in
  either order -/
  | eHead
  /-- `empty`, `tail_.load()` (queue.hpp:303) after `head_.load()` -/
  | eTail (H : Snap)
  /-- `empty`, `head_.load()` (queue.hpp:303) after `tail_.load()` -/
  | eHead2 (T : Snap)
  /-- `freelist_stack::reserve<true>` (freelist.hpp:67-75): `k` nodes to go -/
  | rsv (k : Nat)
  /-- about to return -/
  | ret (r : Ret α)
  /-- a payload was constructed over a live one -/
  | err

def onSwung : TailK → PC α
  | .retryPush n => .pTail n
  | .donePush => .ret (.pushed true)
  | .retryPop => .cHead

def onFreed : FreeK α → PC α
  | .pop v => .ret (.popped (some v))
  | .rsv k => .rsv k

/-- First PC of a call. `reserve` exists only for node-based queues (`fixed_size_freelist` has no `reserve`). -/
def start (cfg : Cfg) : Op α → Option (PC α)
  | .push b v => some (.alloc b v .load)
  | .pop => some .cHead
  | .empty => some .eHead
  | .reserve k => if cfg.fixed then none else some (.rsv k)

/-- Tests after `tail == tail2` (queue.hpp:352, 359-361). -/
def pBranch (n : Nat) (T N : Snap) : PC α :=
  match N.v.ptr with
  | none => .pCas n T N
  | some y => .swing (.retryPush n) T y

/-- Tests after `head == head2` (queue.hpp:431-445). -/
def cBranch (H T N : Snap) : PC α :=
  if H.v.ptr = T.v.ptr then
    match N.v.ptr with
    | none => .ret (.popped none)
    | some y => .swing .retryPop T y
  else
    match N.v.ptr with
    | none => .cHead
    | some y => .cData H y

/-- `tail_.compare_exchange_strong(tail, (y, tail.get_next_tag()))`. -/
def St.swingTail (cfg : Cfg) (s : St α) (T : Snap) (y : Nat) : St α :=
  if s.tail = T.v then { s with tail := ⟨some y, cfg.nextTag T.v.tag⟩, tailVer := s.tailVer + 1 } else s

/-- One step of thread `t` at the given PC. -/
def tstep (cfg : Cfg) (t : Nat) (s : St α) :
    PC α → QChoice α → Option (St α × PC α × Option (Event (Op α) (Ret α)))
  | .idle, .base (.call o) => (start cfg o).map fun p => (s, p, some (.inv t o))
  | .alloc b v a, .base ch =>
    match aStep cfg b s.heap a ch with
    | none => none
    | some (h, .more a') => some ({ s with heap := h }, .alloc b v a', none)
    | some (h, .got n) => some ({ s with heap := h }, .constr b v n, none)
    | some (h, .null) => some ({ s with heap := h }, .ret (.pushed false), none)
    | some (h, .badAlloc) => some ({ s with heap := h }, .ret .threw, none)
  | .constr b v n, .base .go =>
    if (s.heap.data n).isSome then some (s, .err, none)
    else some ({ s with heap := s.heap.setData n (some v) }, .nload b v n, none)
  | .constr _ _ _, .base .throw => some (s, .ret .threw, none)
  | .nload b v n, .base .go => some (s, .nstore b v n (s.heap.next n), none)
  | .nstore _ _ n o, .base .go =>
    some ({ s with heap := { s.heap with next := upd s.heap.next n ⟨none, cfg.nextTag o.tag⟩,
                                         nver := upd s.heap.nver n (s.heap.nver n + 1) } }, .pTail n, none)
  | .pTail n, .base .go => some (s, .pNext n s.tailSnap, none)
  | .pNext n T, ch =>
    match T.v.ptr with
    | none => some (s, .err, none)
    | some x =>
      match ch with
      | .base .go => some (s, .pCheck n T (s.nextSnap x), none)
      | .torn w => if s.tailVer = T.ver then none else some (s, .pCheck n T ⟨w, s.heap.nver x⟩, none)
      | _ => none
  | .pCheck n T N, .base .go =>
    if s.tail = T.v then some (s, pBranch n T N, none) else some (s, .pTail n, none)
  | .pCas n T N, .base .go =>
    match T.v.ptr with
    | none => some (s, .err, none)
    | some x =>
      if s.heap.next x = N.v then
        some ({ s with heap := { s.heap with next := upd s.heap.next x ⟨some n, cfg.nextTag N.v.tag⟩,
                                             nver := upd s.heap.nver x (s.heap.nver x + 1) } },
          .swing .donePush T n, none)
      else some (s, .pTail n, none)
  | .pCas n _ _, .base .spur => some (s, .pTail n, none)
  | .swing k T y, .base .go => some (s.swingTail cfg T y, onSwung k, none)
  | .cHead, .base .go => some (s, .cTail s.headSnap, none)
  | .cTail H, .base .go => some (s, .cNext H s.tailSnap, none)
  | .cNext H T, ch =>
    match H.v.ptr with
    | none => some (s, .err, none)
    | some x =>
      match ch with
      | .base .go => some (s, .cCheck H T (s.nextSnap x), none)
      | .torn w =>
        if s.headVer = H.ver ∨ s.tail.ptr = some x then none
        else some (s, .cCheck H T ⟨w, s.heap.nver x⟩, none)
      | _ => none
  | .cCheck H T N, .base .go =>
    if s.head = H.v then some (s, cBranch H T N, none) else some (s, .cHead, none)
  | .cData H y, ch =>
    match ch with
    | .base .go =>
      match s.heap.data y with
      | some v => some (s, .cCas H y v, none)
      | none => if s.headVer = H.ver then some (s, .err, none) else none
    | .garbage v => if s.headVer = H.ver then none else some (s, .cCas H y v, none)
    | .base .throw => some (s, .ret .threw, none)
    | _ => none
  | .cCas H y v, .base .go =>
    if s.head = H.v then
      match H.v.ptr with
      | none => none
      | some x =>
        some ({ s with head := ⟨some y, cfg.nextTag H.v.tag⟩, headVer := s.headVer + 1 }, .cDestroy x v, none)
    else some (s, .cHead, none)
  | .cCas _ _ _, .base .spur => some (s, .cHead, none)
  | .cDestroy n v, .base .go =>
    some ({ s with heap := s.heap.setData n none }, .free (.pop v) n .load, none)
  | .free k n d, .base ch =>
    match dStep s.heap n d ch with
    | none => none
    | some (h, some d') => some ({ s with heap := h }, .free k n d', none)
    | some (h, none) => some ({ s with heap := h }, onFreed k, none)
  | .eHead, .base .go => some (s, .eTail s.headSnap, none)
  | .eHead, .base .spur => some (s, .eHead2 s.tailSnap, none)
  | .eHead2 T, .base .go => some (s, .ret (.isEmpty (s.head.ptr == T.v.ptr)), none)
  | .eTail H, .base .go => some (s, .ret (.isEmpty (H.v.ptr == s.tail.ptr)), none)
  | .rsv 0, .base .go => some (s, .ret .reserved, none)
  | .rsv (k + 1), .base .go =>
    some ({ s with heap := s.heap.malloc }, .free (.rsv k) s.heap.nalloc .load, none)
  | .rsv (_ + 1), .base .throw => some (s, .ret .threw, none)
  | .ret r, .base .go => some (s, .idle, some (.res t r))
  | _, _ => none

/-- The tag of a compared word has not wrapped completely since the snapshot was taken. -/
def fresh (cfg : Cfg) (s : St α) : PC α → Prop
  | .alloc _ _ a => aFresh cfg s.heap a
  | .pCheck _ T _ => cfg.M = 0 ∨ s.tailVer < T.ver + cfg.M
  | .pCas _ T N => ∀ x, T.v.ptr = some x → cfg.M = 0 ∨ s.heap.nver x < N.ver + cfg.M
  | .swing _ T _ => cfg.M = 0 ∨ s.tailVer < T.ver + cfg.M
  | .cCheck H _ _ => cfg.M = 0 ∨ s.headVer < H.ver + cfg.M
  | .cCas H _ _ => cfg.M = 0 ∨ s.headVer < H.ver + cfg.M
  | _ => True

/-- Steps in which user code throws such that the thread drops its node: the copy constructor
(freelist.hpp:100, 470). -/
def leaky : PC α → QChoice α → Bool
  | .constr _ _ _, .base .throw => true
  | _, _ => false

/-- Global configuration: shared state and the PC of every thread. -/
abbrev Conf (α : Type) := MConf (St α) (PC α)

/-- State after `initialize` (queue.hpp:142-148) on a pool heap: one node is taken from the freelist and becomes
the dummy, with `next = (null, 0)` (queue.hpp:125-127). -/
def St.ofHeap (cfg : Cfg) (h : Heap α) : St α :=
  match h.allocUnsafe cfg false with
  | (h', some d) =>
    { heap := { h' with next := upd h'.next d ⟨none, 0⟩, nver := upd h'.nver d 0 }
      head := ⟨some d, 0⟩, headVer := 0, tail := ⟨some d, 0⟩, tailVer := 0 }
  | (h', none) => { heap := h', head := ⟨none, 0⟩, headVer := 0, tail := ⟨none, 0⟩, tailVer := 0 }

/-- A queue constructed for `n` elements: a pool of `n + 1` nodes (queue.hpp:106, 183-269). -/
def Conf.initial (cfg : Cfg) (n : Nat) : Conf α :=
  { s := St.ofHeap cfg (Heap.initial (n + 1)), pc := fun _ => .idle }

/-- The machine of a queue. -/
def mach (α : Type) (cfg : Cfg) : Mach (St α) (PC α) (QChoice α) (Op α) (Ret α) where
  step := tstep cfg
  idle := .idle
  ret := .ret

/-- Executions of a queue constructed for `n` elements. -/
abbrev Exec (cfg : Cfg) (n : Nat) (h : History (Op α) (Ret α)) (C : Conf α) : Prop :=
  MSteps (mach α cfg) (fun _ _ _ => True) (Conf.initial cfg n) h C

/-- Steps in which no compared tag has wrapped completely since the snapshot it is compared with. -/
def okFresh (cfg : Cfg) (s : St α) (p : PC α) (_ : QChoice α) : Prop := fresh cfg s p

/-- Executions in which no tag wraps completely between a load and the corresponding comparison. -/
abbrev FreshExec (cfg : Cfg) (n : Nat) (h : History (Op α) (Ret α)) (C : Conf α) : Prop :=
  MSteps (mach α cfg) (okFresh cfg) (Conf.initial cfg n) h C

end Verif.Queue
