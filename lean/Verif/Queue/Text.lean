import Verif.TextPool
import Verif.Queue.WordModel

/-!
# `include/boost/lockfree/queue.hpp` as structured programs (C52)

The thread-safe member functions of `queue`, line by line, on stored words; as `Stack/Text`. `Queue/TextSim` shows that this text and the machine
of `Queue/WordModel` agree.
-/

namespace Verif.Queue.Code
open Lin Text

variable {α : Type} (R : Rep)

/-- Local variables and parameters, with their names in the code. -/
structure Loc (K : Words) (α : Type) where
  /-- those of the freelist -/
  fl : PoolVars K
  /-- `t` -/
  t : Option α
  /-- result of a compare-exchange -/
  cas : Bool
  /-- those of the constructor of a node -/
  old_next : K.W
  new_next : K.W
  n : Option Nat
  node_handle : K.H
  tail : SSnap K
  tail_node : Option Nat
  next : SSnap K
  next_ptr : Option Nat
  tail2 : K.W
  new_tail_next : K.W
  new_tail : K.W
  head : SSnap K
  head_ptr : Option Nat
  head2 : K.W
  new_head : K.W
  /-- the parameter of `pop` -/
  ret : Option α
  /-- the operands of `==` in `empty`; whether the left one was evaluated first -/
  left : K.H
  right : K.H
  leftFirst : Bool
  i : Nat
  count : Nat
  result : Ret α

abbrev LStm (α : Type) := PStm R α (SSt R.K α) (Loc R.K α) (Op α)
abbrev LAcc (α : Type) := Access (SSt R.K α) (Loc R.K α) (SChoice R.K (Op α) α)

/-- The member `pool`. -/
def port (α : Type) : Port R α (SSt R.K α) (Loc R.K α) where
  mem := SSt.mem
  setMem s m := { s with mem := m }
  fl := Loc.fl
  setFl l x := { l with fl := x }
  mem_set _ _ := rfl
  fl_set _ _ := rfl
  set_set _ _ _ := rfl
  set_fl _ := rfl
  atomicNext := true

variable {R}

/-- `head_.load( memory_order_acquire )`; `ok`: assumption, see `headFresh`. -/
def loadHead (store : Loc R.K α → SSnap R.K → Loc R.K α) (ok : SSt R.K α → Loc R.K α → Bool := fun _ _ => true) : LAcc R α where
  run _ s l
    | .go => some (s, store l s.headSnap, .next)
    | _ => none
  ok s l _ := ok s l
  kind _ := .load .head .acquire

/-- `tail_.load( memory_order_acquire )`. -/
def loadTail (store : Loc R.K α → SSnap R.K → Loc R.K α) (ok : SSt R.K α → Loc R.K α → Bool := fun _ _ => true) : LAcc R α where
  run _ s l
    | .go => some (s, store l s.tailSnap, .next)
    | _ => none
  ok s l _ := ok s l
  kind _ := .load .tail .acquire

/-- The assumption that the tag of `head_` has not wrapped completely since `head` was read. -/
def headFresh (s : SSt R.K α) (l : Loc R.K α) : Bool := decide (s.headVer < l.head.ver + R.M)

/-- The assumption that the tag of `tail_` has not wrapped completely since `tail` was read. -/
def tailFresh (s : SSt R.K α) (l : Loc R.K α) : Bool := decide (s.tailVer < l.tail.ver + R.M)

/-- `next = e->next.load( memory_order_acquire )`. If `races` the node may have been taken by the freelist, whose accesses are not atomic: the
read returns anything. -/
def loadNext (e : Loc R.K α → Option Nat) (races : SSt R.K α → Loc R.K α → Nat → Bool) : LAcc R α where
  run _ s l ch :=
    match e l, ch with
    | none, _ => some (s, l, .ub)
    | some x, .go => some (s, { l with next := s.nextSnap x }, .next)
    | some x, .torn w => if races s l x then some (s, { l with next := ⟨w, s.mem.nver x⟩ }, .next) else none
    | _, _ => none
  kind l :=
    match e l with
    | none => .plain []
    | some x => .load (.next x) .acquire

/-- `tail_node->next.compare_exchange_weak( next, new_tail_next )`. -/
def casNext : LAcc R α where
  run _ s l ch :=
    match l.tail_node, ch with
    | none, _ => some (s, l, .ub)
    | some x, .go =>
      if s.mem.next x = l.next.v then
        some ({ s with mem := { s.mem with next := upd s.mem.next x l.new_tail_next, nver := upd s.mem.nver x (s.mem.nver x + 1) } },
          { l with cas := true }, .next)
      else some (s, { l with cas := false, next := s.nextSnap x }, .next)
    | some x, .spur => some (s, { l with cas := false, next := s.nextSnap x }, .next)
    | _, _ => none
  ok s l _ :=
    match l.tail_node with
    | none => true
    | some x => decide (s.mem.nver x < l.next.ver + R.M)
  kind l :=
    match l.tail_node with
    | none => .plain []
    | some x => .cas (.next x) fun l => l.cas

/-- `tail_.compare_exchange_strong( tail, new_tail )`. -/
def casTail : LAcc R α where
  run _ s l
    | .go =>
      if s.tail = l.tail.v then some ({ s with tail := l.new_tail, tailVer := s.tailVer + 1 }, { l with cas := true }, .next)
      else some (s, { l with cas := false, tail := s.tailSnap }, .next)
    | _ => none
  ok s l _ := tailFresh s l
  kind _ := .casStrong .tail fun l => l.cas

/-- `head_.compare_exchange_weak( head, new_head )`. -/
def casHead : LAcc R α where
  run _ s l
    | .go =>
      if s.head = l.head.v then some ({ s with head := l.new_head, headVer := s.headVer + 1 }, { l with cas := true }, .next)
      else some (s, { l with cas := false, head := s.headSnap }, .next)
    | .spur => some (s, { l with cas := false, head := s.headSnap }, .next)
    | _ => none
  ok s l _ := headFresh s l
  kind l := .casTaking .head (fun l => l.cas) l.next_ptr.toList

/-- `detail::copy_payload( next_ptr->data, ret )`. If `head_` has changed since it was read, the node may have been taken by another thread: the
read races and returns anything. -/
def copyPayload : LAcc R α where
  run _ s l ch :=
    match l.next_ptr, ch with
    | none, _ => some (s, l, .ub)
    | some y, .go =>
      match s.mem.data y with
      | some v => some (s, { l with ret := some v }, .next)
      | none => if s.headVer = l.head.ver then some (s, l, .ub) else none
    | some _, .garbage v => if s.headVer = l.head.ver then none else some (s, { l with ret := some v }, .next)
    | some _, .throw => some (s, l, .throws)
    | _, _ => none
  kind l :=
    match l.next_ptr with
    | none => .plain []
    | some y => .copy y fun
      | .garbage v => some { l with ret := some v }
      | _ => none

/-- `old_next = next.load( memory_order_relaxed )` in the constructor of a node. -/
def ctorLoad : LAcc R α where
  run _ s l ch :=
    match l.fl.node, ch with
    | none, _ => some (s, l, .ub)
    | some n, .go => some (s, { l with old_next := s.mem.next n }, .next)
    | _, _ => none
  kind l :=
    match l.fl.node with
    | none => .plain []
    | some n => .load (.next n) .relaxed

/-- `next.store( new_next, memory_order_release )` in the constructor of a node. -/
def ctorStore : LAcc R α where
  run _ s l ch :=
    match l.fl.node, ch with
    | none, _ => some (s, l, .ub)
    | some n, .go =>
      some ({ s with mem := { s.mem with next := upd s.mem.next n l.new_next, nver := upd s.mem.nver n (s.mem.nver n + 1) } }, l, .next)
    | _, _ => none
  kind l :=
    match l.fl.node with
    | none => .plain []
    | some n => .store n true []

/-- `node( T const& v, handle_type null_handle )` (queue.hpp:116-123). -/
def nodeCtor : LStm R α :=
  .acc ((port R α).ctor fun l => l.t) ;;
  .acc ctorLoad ;;
  .set (fun l => { l with new_next := R.K.pack (R.K.hnd none) (R.K.next (R.K.tag l.old_next)) }) ;;
  .acc ctorStore

/-- `pool.template construct< true, Bounded >( t, pool.null_handle() )` (freelist.hpp:95-102, 463-472). -/
def construct (b : Bool) : LStm R α :=
  .fn (
    .fn ((port R α).allocate b) ;;
    .ite (fun l => l.fl.node.isSome)
      nodeCtor
      .skip)

/-- `n->~T()` (freelist.hpp:108, 480): the payload of a queue has a trivial destructor (queue.hpp:91-93), and the node may be the first dummy
node, whose payload was never written. -/
def dtor : LAcc R α where
  run _ s l ch :=
    match l.fl.n, ch with
    | none, _ => some (s, l, .ub)
    | some n, .go => some ({ s with mem := s.mem.setData n none }, l, .next)
    | _, _ => none
  kind l := .plain l.fl.n.toList

/-- `pool.template destruct< true >( head )` (freelist.hpp:104-110, 474-481). -/
def destruct : LStm R α :=
  .set (fun l => { l with fl := { l.fl with n := R.K.node (R.K.ptr l.head.v) } }) ;;
  .fn (
    .acc dtor ;;
    .fn (port R α).deallocate)

/-- The body of `if ( next_ptr == 0 )` in `do_push` (queue.hpp:352-358). -/
def appendNode : LStm R α :=
  .set (fun l => { l with new_tail_next := R.K.pack l.node_handle (R.K.next (R.K.tag l.next.v)) }) ;;
  .acc casNext ;;
  .ite (fun l => l.cas)
    (.set (fun l => { l with new_tail := R.K.pack l.node_handle (R.K.next (R.K.tag l.tail.v)) }) ;;
     .acc casTail ;;
     .set (fun l => { l with result := .pushed true }) ;;
     .ret)
    .skip

/-- The loop of `do_push` (queue.hpp:344-364). -/
def pushLoop : LStm R α :=
  .acc (loadTail fun l x => { l with tail := x }) ;;
  .set (fun l => { l with tail_node := R.K.node (R.K.ptr l.tail.v) }) ;;
  .acc (loadNext (fun l => l.tail_node) fun s l _ => s.tailVer != l.tail.ver) ;;
  .set (fun l => { l with next_ptr := R.K.node (R.K.ptr l.next.v) }) ;;
  .acc (loadTail (fun l x => { l with tail2 := x.v }) tailFresh) ;;
  .ite (fun l => l.tail.v == l.tail2)
    (.ite (fun l => l.next_ptr.isNone)
      appendNode
      (.set (fun l => { l with new_tail := R.K.pack (R.K.hnd l.next_ptr) (R.K.next (R.K.tag l.tail.v)) }) ;;
       .acc casTail))
    .skip

/-- `do_push< Bounded >( t )` (queue.hpp:335-365). -/
def doPush (b : Bool) : LStm R α :=
  construct b ;;
  .set (fun l => { l with n := l.fl.node }) ;;
  .set (fun l => { l with node_handle := R.K.hnd l.n }) ;;
  .ite (fun l => l.n.isNone)
    (.set (fun l => { l with result := .pushed false }) ;;
     .ret)
    .skip ;;
  .forever pushLoop

/-- queue.hpp:432-436. -/
def helpTail : LStm R α :=
  .ite (fun l => l.next_ptr.isNone)
    (.set (fun l => { l with result := .popped none }) ;;
     .ret)
    .skip ;;
  .set (fun l => { l with new_tail := R.K.pack (R.K.ptr l.next.v) (R.K.next (R.K.tag l.tail.v)) }) ;;
  .acc casTail

/-- queue.hpp:439-452. -/
def takeFirst : LStm R α :=
  .ite (fun l => l.next_ptr.isNone)
    .cont
    .skip ;;
  .acc copyPayload ;;
  .set (fun l => { l with new_head := R.K.pack (R.K.ptr l.next.v) (R.K.next (R.K.tag l.head.v)) }) ;;
  .acc casHead ;;
  .ite (fun l => l.cas)
    (destruct ;;
     .set (fun l => { l with result := .popped l.ret }) ;;
     .ret)
    .skip

/-- The loop of `pop` (queue.hpp:421-455). -/
def popLoop : LStm R α :=
  .acc (loadHead fun l x => { l with head := x }) ;;
  .set (fun l => { l with head_ptr := R.K.node (R.K.ptr l.head.v) }) ;;
  .acc (loadTail fun l x => { l with tail := x }) ;;
  .acc (loadNext (fun l => l.head_ptr) fun s l x => s.headVer != l.head.ver && R.K.node (R.K.ptr s.tail) != some x) ;;
  .set (fun l => { l with next_ptr := R.K.node (R.K.ptr l.next.v) }) ;;
  .acc (loadHead (fun l x => { l with head2 := x.v }) headFresh) ;;
  .ite (fun l => l.head.v == l.head2)
    (.ite (fun l => R.K.ptr l.head.v == R.K.ptr l.tail.v)
      helpTail
      takeFirst)
    .skip

/-- `pop( ret )` (queue.hpp:418-456), also called by `consume_one` (queue.hpp:523-543). -/
def pop : LStm R α :=
  .forever popLoop

/-- The first operand that is evaluated in `empty`. -/
def evalFirst : LAcc R α where
  run _ s l
    | .go => some (s, { l with left := R.K.ptr s.head, leftFirst := true }, .next)
    | .spur => some (s, { l with right := R.K.ptr s.tail, leftFirst := false }, .next)
    | _ => none
  kind _ := .first .head .tail .acquire

/-- `empty()` (queue.hpp:301-304): the order in which the operands of `==` are evaluated is unspecified. -/
def isEmpty : LStm R α :=
  .acc evalFirst ;;
  .ite (fun l => l.leftFirst)
    (.acc (loadTail fun l x => { l with right := R.K.ptr x.v }))
    (.acc (loadHead fun l x => { l with left := R.K.ptr x.v })) ;;
  .set (fun l => { l with result := .isEmpty (l.left == l.right) }) ;;
  .ret

/-- The loop of `reserve< true >( count )` (freelist.hpp:70-74). -/
def reserveLoop : LStm R α :=
  .ite (fun l => l.i == l.count) .brk .skip ;;
  .acc ((port R α).osAllocate fun v n => { v with n := n }) ;;
  .fn (port R α).deallocate ;;
  .set (fun l => { l with i := l.i + 1 })

/-- `reserve< true >( count )` (freelist.hpp:68-75, queue.hpp:273-276). -/
def reserve : LStm R α :=
  .set (fun l => { l with i := 0 }) ;;
  .forever reserveLoop ;;
  .set (fun l => { l with result := .reserved }) ;;
  .ret

/-- A call: if an exception leaves the function, the result is `threw`. -/
def call (a : LStm R α) : LStm R α :=
  .tryCatch (.fn a) (.set fun l => { l with result := .threw })

/-- The local variables before a call; words and handles: anything. -/
def Loc.init (w : R.K.W) : Loc R.K α where
  fl := ⟨⟨w, 0⟩, R.K.ptr w, w, false, none, none⟩
  t := none
  cas := false
  old_next := w
  new_next := w
  n := none
  node_handle := R.K.ptr w
  tail := ⟨w, 0⟩
  tail_node := none
  next := ⟨w, 0⟩
  next_ptr := none
  tail2 := w
  new_tail_next := w
  new_tail := w
  head := ⟨w, 0⟩
  head_ptr := none
  head2 := w
  new_head := w
  ret := none
  left := R.K.ptr w
  right := R.K.ptr w
  leftFirst := false
  i := 0
  count := 0
  result := .threw

/-- The member functions. `reserve` is not for queues of fixed size. -/
def program (R : Rep) (α : Type) : Program (SSt R.K α) (Loc R.K α) (SChoice R.K (Op α) α) (Op α) (Ret α) where
  body _
    | .push b v => some ({ Loc.init R.zero with t := some v }, call (doPush b))
    | .pop => some (Loc.init R.zero, call pop)
    | .empty => some (Loc.init R.zero, call isEmpty)
    | .reserve k => if R.fixed then none else some ({ Loc.init R.zero with count := k }, call reserve)
  result l := l.result

/-- Executions of the program text of a queue constructed for `n` elements, in which no tag wraps completely between a load and the
corresponding comparison. -/
abbrev TextExec (R : Rep) (n : Nat) (h : History (Op α) (Ret α))
    (C : MConf (SSt R.K α) (TPC (SSt R.K α) (Loc R.K α) (SChoice R.K (Op α) α) (Ret α))) : Prop :=
  MSteps (program R α).mach (Program.ok fun _ _ => True) ⟨(SConf.initial R n).s, fun _ => .idle⟩ h C

end Verif.Queue.Code
