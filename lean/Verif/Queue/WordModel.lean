import Verif.WordMem
import Verif.Queue.Model

/-!
# Model of `include/boost/lockfree/queue.hpp` on stored words

The machine of `Queue/Model` once more, with `head_`, `tail_`, `pool_` and the links as the code stores them: words of type
`tagged_node_handle`, taken apart and put together with the operations of `tagged_ptr` / `tagged_index`. Compare-exchanges and the
tests `tail == tail2`, `head == head2` compare words; `get_handle( head ) == get_handle( tail )` compares handles. Handles are turned
into pointers by `get_pointer` (`Words.node`) and back by `get_handle` (`Words.hnd`).
-/

namespace Verif.Queue
open Lin

variable {α : Type}

/-- Shared state: nodes and freelist, `head_` and `tail_` (queue.hpp:576, 579) with ghost versions. -/
structure SSt (K : Words) (α : Type) where
  mem : SMem K α
  head : K.W
  headVer : Nat
  tail : K.W
  tailVer : Nat

def SSt.headSnap {K : Words} (s : SSt K α) : SSnap K := ⟨s.head, s.headVer⟩
def SSt.tailSnap {K : Words} (s : SSt K α) : SSnap K := ⟨s.tail, s.tailVer⟩
def SSt.nextSnap {K : Words} (s : SSt K α) (n : Nat) : SSnap K := ⟨s.mem.next n, s.mem.nver n⟩

/-- Program counters of a thread; the lines of the code are those of `PC`. Local variables of type `node*` are nodes, those of type
`tagged_node_handle` are words, those of type `handle_type` are handles. -/
inductive SPC (K : Words) (α : Type) where
  | idle
  | alloc (b : Bool) (v : α) (a : SAPC K)
  | constr (b : Bool) (v : α) (n : Nat)
  | nload (b : Bool) (v : α) (n : Nat)
  | nstore (b : Bool) (v : α) (n : Nat) (o : K.W)
  | pTail (n : Nat)
  | pNext (n : Nat) (T : SSnap K)
  | pCheck (n : Nat) (T N : SSnap K)
  | pCas (n : Nat) (T N : SSnap K)
  | swing (k : TailK) (T : SSnap K) (y : K.H)
  | cHead
  | cTail (H : SSnap K)
  | cNext (H T : SSnap K)
  | cCheck (H T N : SSnap K)
  | cData (H : SSnap K) (y : Nat) (nx : K.H)
  | cCas (H : SSnap K) (nx : K.H) (v : α)
  | cDestroy (n : Nat) (v : α)
  | free (k : FreeK α) (n : Nat) (d : SDPC K)
  | eHead
  | eTail (H : SSnap K)
  | eHead2 (T : SSnap K)
  | rsv (k : Nat)
  | ret (r : Ret α)
  | err

def sonSwung {K : Words} : TailK → SPC K α
  | .retryPush n => .pTail n
  | .donePush => .ret (.pushed true)
  | .retryPop => .cHead

def sonFreed {K : Words} : FreeK α → SPC K α
  | .pop v => .ret (.popped (some v))
  | .rsv k => .rsv k

/-- First PC of a call. -/
def sstart (R : Rep) : Op α → Option (SPC R.K α)
  | .push b v => some (.alloc b v .load)
  | .pop => some .cHead
  | .empty => some .eHead
  | .reserve k => if R.fixed then none else some (.rsv k)

/-- Tests after `tail == tail2` (queue.hpp:352, 359-361); the new tail is `pool.get_handle( next_ptr )`. -/
def spBranch {K : Words} (n : Nat) (T N : SSnap K) : SPC K α :=
  match K.node (K.ptr N.v) with
  | none => .pCas n T N
  | some y => .swing (.retryPush n) T (K.hnd (some y))

/-- Tests after `head == head2` (queue.hpp:431-445); the new tail and the new head are `pool.get_handle( next )`. -/
def scBranch {K : Words} (H T N : SSnap K) : SPC K α :=
  if K.ptr H.v = K.ptr T.v then
    match K.node (K.ptr N.v) with
    | none => .ret (.popped none)
    | some _ => .swing .retryPop T (K.ptr N.v)
  else
    match K.node (K.ptr N.v) with
    | none => .cHead
    | some y => .cData H y (K.ptr N.v)

/-- `tail_.compare_exchange_strong(tail, (y, tail.get_next_tag()))`. -/
def SSt.swingTail {K : Words} (s : SSt K α) (T : SSnap K) (y : K.H) : SSt K α :=
  if s.tail = T.v then { s with tail := K.pack y (K.next (K.tag T.v)), tailVer := s.tailVer + 1 } else s

/-- One step of thread `t` at the given PC; the lines of the code are those of `PC`. In `empty()` the choice `.spur` selects the other
order of evaluation. -/
def ststep (R : Rep) (t : Nat) (s : SSt R.K α) :
    SPC R.K α → SChoice R.K (Op α) α → Option (SSt R.K α × SPC R.K α × Option (Event (Op α) (Ret α)))
  | .idle, .call o => (sstart R o).map fun p => (s, p, some (.inv t o))
  | .alloc b v a, ch =>
    match saStep R b s.mem a ch with
    | none => none
    | some (h, .more a') => some ({ s with mem := h }, .alloc b v a', none)
    | some (h, .got n) => some ({ s with mem := h }, .constr b v n, none)
    | some (h, .null) => some ({ s with mem := h }, .ret (.pushed false), none)
    | some (h, .badAlloc) => some ({ s with mem := h }, .ret .threw, none)
  | .constr b v n, .go =>
    if (s.mem.data n).isSome then some (s, .err, none)
    else some ({ s with mem := s.mem.setData n (some v) }, .nload b v n, none)
  | .constr _ _ _, .throw => some (s, .ret .threw, none)
  | .nload b v n, .go => some (s, .nstore b v n (s.mem.next n), none)
  | .nstore _ _ n o, .go =>
    some ({ s with mem := { s.mem with next := upd s.mem.next n (R.K.pack (R.K.hnd none) (R.K.next (R.K.tag o))),
                                       nver := upd s.mem.nver n (s.mem.nver n + 1) } }, .pTail n, none)
  | .pTail n, .go => some (s, .pNext n s.tailSnap, none)
  | .pNext n T, ch =>
    match R.K.node (R.K.ptr T.v) with
    | none => some (s, .err, none)
    | some x =>
      match ch with
      | .go => some (s, .pCheck n T (s.nextSnap x), none)
      | .torn w => if s.tailVer = T.ver then none else some (s, .pCheck n T ⟨w, s.mem.nver x⟩, none)
      | _ => none
  | .pCheck n T N, .go =>
    if s.tail = T.v then some (s, spBranch n T N, none) else some (s, .pTail n, none)
  | .pCas n T N, .go =>
    match R.K.node (R.K.ptr T.v) with
    | none => some (s, .err, none)
    | some x =>
      if s.mem.next x = N.v then
        some ({ s with mem := { s.mem with next := upd s.mem.next x (R.K.pack (R.K.hnd (some n)) (R.K.next (R.K.tag N.v))),
                                           nver := upd s.mem.nver x (s.mem.nver x + 1) } },
          .swing .donePush T (R.K.hnd (some n)), none)
      else some (s, .pTail n, none)
  | .pCas n _ _, .spur => some (s, .pTail n, none)
  | .swing k T y, .go => some (s.swingTail T y, sonSwung k, none)
  | .cHead, .go => some (s, .cTail s.headSnap, none)
  | .cTail H, .go => some (s, .cNext H s.tailSnap, none)
  | .cNext H T, ch =>
    match R.K.node (R.K.ptr H.v) with
    | none => some (s, .err, none)
    | some x =>
      match ch with
      | .go => some (s, .cCheck H T (s.nextSnap x), none)
      | .torn w =>
        if s.headVer = H.ver ∨ R.K.node (R.K.ptr s.tail) = some x then none
        else some (s, .cCheck H T ⟨w, s.mem.nver x⟩, none)
      | _ => none
  | .cCheck H T N, .go =>
    if s.head = H.v then some (s, scBranch H T N, none) else some (s, .cHead, none)
  | .cData H y nx, ch =>
    match ch with
    | .go =>
      match s.mem.data y with
      | some v => some (s, .cCas H nx v, none)
      | none => if s.headVer = H.ver then some (s, .err, none) else none
    | .garbage v => if s.headVer = H.ver then none else some (s, .cCas H nx v, none)
    | .throw => some (s, .ret .threw, none)
    | _ => none
  | .cCas H nx v, .go =>
    if s.head = H.v then
      match R.K.node (R.K.ptr H.v) with
      | none => none
      | some x =>
        some ({ s with head := R.K.pack nx (R.K.next (R.K.tag H.v)), headVer := s.headVer + 1 }, .cDestroy x v, none)
    else some (s, .cHead, none)
  | .cCas _ _ _, .spur => some (s, .cHead, none)
  | .cDestroy n v, .go =>
    some ({ s with mem := s.mem.setData n none }, .free (.pop v) n .load, none)
  | .free k n d, ch =>
    match sdStep R s.mem n d ch with
    | none => none
    | some (h, some d') => some ({ s with mem := h }, .free k n d', none)
    | some (h, none) => some ({ s with mem := h }, sonFreed k, none)
  | .eHead, .go => some (s, .eTail s.headSnap, none)
  | .eHead, .spur => some (s, .eHead2 s.tailSnap, none)
  | .eHead2 T, .go => some (s, .ret (.isEmpty (decide (R.K.ptr s.head = R.K.ptr T.v))), none)
  | .eTail H, .go => some (s, .ret (.isEmpty (decide (R.K.ptr H.v = R.K.ptr s.tail))), none)
  | .rsv 0, .go => some (s, .ret .reserved, none)
  | .rsv (k + 1), .go =>
    if s.mem.nalloc < R.limit then some ({ s with mem := s.mem.malloc R }, .free (.rsv k) s.mem.nalloc .load, none) else none
  | .rsv (_ + 1), .throw => some (s, .ret .threw, none)
  | .ret r, .go => some (s, .idle, some (.res t r))
  | _, _ => none

/-- The tag of a compared word has not wrapped completely since the snapshot was taken. -/
def sfresh (R : Rep) (s : SSt R.K α) : SPC R.K α → Prop
  | .alloc _ _ a => saFresh R s.mem a
  | .pCheck _ T _ => s.tailVer < T.ver + R.M
  | .pCas _ T N => ∀ x, R.K.node (R.K.ptr T.v) = some x → s.mem.nver x < N.ver + R.M
  | .swing _ T _ => s.tailVer < T.ver + R.M
  | .cCheck H _ _ => s.headVer < H.ver + R.M
  | .cCas H _ _ => s.headVer < H.ver + R.M
  | _ => True

/-- Global configuration: shared state and the PC of every thread. -/
abbrev SConf (K : Words) (α : Type) := MConf (SSt K α) (SPC K α)

/-- State after `initialize` (queue.hpp:142-148) on a pool that is not empty: one node is taken from the freelist (freelist.hpp:198-217,
562-577) and becomes the dummy, with `next = (null, 0)` (queue.hpp:125-127). -/
def SSt.ofMem (R : Rep) (m : SMem R.K α) (d : Nat) : SSt R.K α :=
  { mem := { m with pool := R.K.pack (R.K.ptr (m.next d)) (R.K.next (R.K.tag m.pool)), poolVer := m.poolVer + 1,
                    next := upd m.next d (R.K.pack (R.K.hnd none) (R.encT 0)), nver := upd m.nver d 0 }
    head := R.K.pack (R.K.hnd (some d)) (R.encT 0), headVer := 0
    tail := R.K.pack (R.K.hnd (some d)) (R.encT 0), tailVer := 0 }

/-- A queue constructed for `n` elements: a pool of `n + 1` nodes (queue.hpp:106, 183-269), of which the last one becomes the dummy. -/
def SConf.initial (R : Rep) (n : Nat) : SConf R.K α :=
  { s := SSt.ofMem R (SMem.initial R (n + 1)) ((R.K.node (R.K.ptr (SMem.initial R (n + 1) : SMem R.K α).pool)).getD 0), pc := fun _ => .idle }

/-- The machine of a queue on words. -/
def smach (α : Type) (R : Rep) : Mach (SSt R.K α) (SPC R.K α) (SChoice R.K (Op α) α) (Op α) (Ret α) where
  step := ststep R
  idle := .idle
  ret := .ret

/-- No complete tag wrap. -/
def sokFresh (R : Rep) (s : SSt R.K α) (p : SPC R.K α) (_ : SChoice R.K (Op α) α) : Prop := sfresh R s p

/-- Executions on words of a queue constructed for `n` elements, in which no tag wraps completely between a load and the corresponding
comparison. -/
abbrev WordExec (R : Rep) (n : Nat) (h : History (Op α) (Ret α)) (C : SConf R.K α) : Prop :=
  MSteps (smach α R) (sokFresh R) (SConf.initial R n) h C

end Verif.Queue
