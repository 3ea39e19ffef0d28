import Verif.TextPool
import Verif.Stack.WordModel

/-!
# `include/boost/lockfree/stack.hpp` as structured programs (C52)

The thread-safe member functions of `stack`, line by line, on stored words. `Stack/WordModel` has one program counter per place in the
code; here the code is given by its statements, and the order in which they are executed follows from `Verif.Text`. `Stack/TextSim`
shows that both agree.
-/

namespace Verif.Stack.Code
open Lin Text

variable {α : Type} (R : Rep)

/-- Local variables and parameters, with their names in the code; ghost: `applied`, the elements the functor has been applied to. -/
structure Loc (K : Words) (α : Type) where
  /-- those of the freelist -/
  fl : PoolVars K
  /-- argument of the constructor of a node -/
  arg : Option α
  /-- the call of the functor that throws -/
  thr : Option Nat
  /-- result of a compare-exchange -/
  cas : Bool
  old_tos : SSnap K
  new_tos : K.W
  old_tos_next : K.H
  newnode : Option Nat
  new_top_node : Option Nat
  end_node : Option Nat
  /-- `[begin, end)` -/
  range : List α
  /-- `[it, end)` -/
  it : List α
  /-- `[ret, end)` -/
  ret : List α
  current_node : Option Nat
  next : Option Nat
  old_tos_pointer : Option Nat
  node_pointer : Option Nat
  next_node : Option Nat
  last_node_pointer : Option Nat
  new_tos_ptr : Option Nat
  nodes_to_consume : K.W
  nodes_in_reversed_order : K.W
  next_handle : K.W
  element_count : Nat
  i : Nat
  count : Nat
  applied : List α
  result : Ret α
  /-- the number returned by `consume_all_atomic` and `consume_all_atomic_reversed` -/
  returned : Option Nat

abbrev LStm (α : Type) := PStm R α (SSt R.K α) (Loc R.K α) (Op α)
abbrev LAcc (α : Type) := Access (SSt R.K α) (Loc R.K α) (SChoice R.K (Op α) α)

/-- The member `pool`. -/
def port (α : Type) : Port R α (SSt R.K α) (Loc R.K α) where
  mem := SSt.mem
  setMem s m := { s with mem := m }
  fl := Loc.fl
  setFl l x := { l with fl := x }
  mem_set _ _ := rfl
  fl_set _ _ := rfl
  set_set _ _ _ := rfl
  set_fl _ := rfl

variable {R}

/-- `old_tos = tos.load( ord )`. -/
def loadTos (ord : Order) : LAcc R α where
  run _ s l
    | .go => some (s, { l with old_tos := s.tosSnap }, .next)
    | _ => none
  kind _ := .load .tos ord

/-- `tos.compare_exchange_weak( old_tos, new_tos )`; `removes`: see `Port.casPool`. -/
def casTos (removes : Bool) : LAcc R α where
  run _ s l
    | .go =>
      if s.tos = l.old_tos.v then
        some ({ s with tos := l.new_tos, tosVer := if removes then s.tosVer + 1 else s.tosVer }, { l with cas := true }, .next)
      else some (s, { l with cas := false, old_tos := s.tosSnap }, .next)
    | .spur => some (s, { l with cas := false, old_tos := s.tosSnap }, .next)
    | _ => none
  ok s l _ := decide (removes = true → s.tosVer < l.old_tos.ver + R.M)
  kind _ := .cas .tos fun l => l.cas

/-- A read of `e->next`. -/
def readNext (e : Loc R.K α → Option Nat) (store : Loc R.K α → R.K.H → Loc R.K α) : LAcc R α where
  run _ s l ch :=
    match e l, ch with
    | none, _ => some (s, l, .ub)
    | some n, .go => some (s, store l (R.K.ptr (s.mem.next n)), .next)
    | _, _ => none
  kind l := .plain (e l).toList

/-- A read of `e->next` through `old_tos`. If another thread has taken the node in the meantime this read races, and returns anything. -/
def readNextSpec (e : Loc R.K α → Option Nat) (store : Loc R.K α → R.K.H → Loc R.K α) : LAcc R α where
  run _ s l ch :=
    match e l, ch with
    | none, _ => some (s, l, .ub)
    | some n, .go => some (s, store l (R.K.ptr (s.mem.next n)), .next)
    | some _, .racy x => if s.tosVer = l.old_tos.ver then none else some (s, store l x, .next)
    | _, _ => none
  kind l :=
    match e l with
    | none => .plain []
    | some n => .spec n fun
      | .racy x => some (store l x)
      | _ => none

/-- `e->next = h`. -/
def setNext (e : Loc R.K α → Option Nat) (h : Loc R.K α → R.K.H) : LAcc R α where
  run _ s l ch :=
    match e l, ch with
    | none, _ => some (s, l, .ub)
    | some n, .go => some ({ s with mem := s.mem.setLink n (h l) }, l, .next)
    | _, _ => none
  kind l := .plain (e l).toList

/-- `f( e->v )`. -/
def apply (e : Loc R.K α → Option Nat) : LAcc R α where
  run _ s l ch :=
    match e l, ch with
    | none, _ => some (s, l, .ub)
    | some n, .go =>
      match s.mem.data n with
      | none => some (s, l, .ub)
      | some v => some (s, { l with applied := l.applied ++ [v] }, if l.thr = some l.applied.length then .throws else .next)
    | _, _ => none
  kind l := .plain (e l).toList

/-- `pool.template construct< true, Bounded >( arg )` (freelist.hpp:86-93, 450-460; stack.hpp:85-87). -/
def construct (b : Bool) : LStm R α :=
  .fn (
    .fn ((port R α).allocate b) ;;
    .ite (fun l => l.fl.node.isSome)
      (.acc ((port R α).ctor fun l => l.arg))
      .skip)

/-- `pool.template destruct< true >( e )`. -/
def destruct (e : Loc R.K α → Option Nat) : LStm R α :=
  .set (fun l => { l with fl := { l.fl with n := e l } }) ;;
  .fn (port R α).destruct

/-- The loop of `link_nodes_atomic` (stack.hpp:265-271). -/
def linkLoop : LStm R α :=
  .set (fun l => { l with new_tos := R.K.pack (R.K.hnd l.new_top_node) (R.K.tag l.old_tos.v) }) ;;
  .acc (setNext (fun l => l.end_node) (fun l => R.K.ptr l.old_tos.v)) ;;
  .acc (casTos false) ;;
  .ite (fun l => l.cas) .brk .skip

/-- `link_nodes_atomic( new_top_node, end_node )` (stack.hpp:262-272). -/
def linkNodesAtomic : LStm R α :=
  .acc (loadTos .relaxed) ;;
  .forever linkLoop

/-- `do_push< Bounded >( v )` (stack.hpp:352-361). -/
def doPush (b : Bool) : LStm R α :=
  construct b ;;
  .set (fun l => { l with newnode := l.fl.node }) ;;
  .ite (fun l => l.newnode.isNone)
    (.set (fun l => { l with result := .pushed false }) ;;
     .ret)
    .skip ;;
  .set (fun l => { l with new_top_node := l.newnode, end_node := l.newnode }) ;;
  .fn linkNodesAtomic ;;
  .set (fun l => { l with result := .pushed true }) ;;
  .ret

/-- The loop of `prepare_node_list` (stack.hpp:300-306). -/
def prepareLoop (b : Bool) : LStm R α :=
  .ite (fun l => l.it.isEmpty) .brk .skip ;;
  .set (fun l => { l with arg := l.it.head? }) ;;
  construct b ;;
  .set (fun l => { l with newnode := l.fl.node }) ;;
  .ite (fun l => l.newnode.isNone) .brk .skip ;;
  .acc (setNext (fun l => l.newnode) (fun l => R.K.hnd l.new_top_node)) ;;
  .set (fun l => { l with new_top_node := l.newnode }) ;;
  .set (fun l => { l with it := l.it.tail })

/-- The loop of the `catch` block of `prepare_node_list` (stack.hpp:310-314). -/
def undoLoop : LStm R α :=
  .ite (fun l => l.current_node.isNone) .brk .skip ;;
  .acc (readNext (fun l => l.current_node) (fun l h => { l with next := R.K.node h })) ;;
  destruct (fun l => l.current_node) ;;
  .set (fun l => { l with current_node := l.next })

/-- The `catch` block of `prepare_node_list` (stack.hpp:308-316). -/
def undo : LStm R α :=
  .set (fun l => { l with current_node := l.new_top_node }) ;;
  .forever undoLoop ;;
  .rethrow

/-- `prepare_node_list< true, Bounded >( begin, end, ret )` (stack.hpp:284-321). -/
def prepareNodeList (b : Bool) : LStm R α :=
  .set (fun l => { l with it := l.range }) ;;
  .set (fun l => { l with arg := l.it.head?, it := l.it.tail }) ;;
  construct b ;;
  .set (fun l => { l with end_node := l.fl.node }) ;;
  .ite (fun l => l.end_node.isNone)
    (.set (fun l => { l with ret := l.range, new_top_node := none }) ;;
     .ret)
    .skip ;;
  .set (fun l => { l with new_top_node := l.end_node }) ;;
  .acc (setNext (fun l => l.end_node) (fun _ => R.K.hnd none)) ;;
  .tryCatch
    (.forever (prepareLoop b))
    undo ;;
  .set (fun l => { l with ret := l.it })

/-- `do_push< Bounded >( begin, end )` (stack.hpp:363-375); the result is `ret - begin`. -/
def doPushRange (b : Bool) : LStm R α :=
  .fn (prepareNodeList b) ;;
  .ite (fun l => l.new_top_node.isSome)
    (.fn linkNodesAtomic)
    .skip ;;
  .set (fun l => { l with result := .count (l.range.length - l.ret.length) }) ;;
  .ret

/-- The end of `consume_one` (stack.hpp:543-545, 564-566). -/
def consumed : LStm R α :=
  .acc (apply fun l => l.old_tos_pointer) ;;
  destruct (fun l => R.K.node (R.K.ptr l.old_tos.v)) ;;
  .set (fun l => { l with result := .popped l.applied.head? }) ;;
  .ret

/-- The loop of `consume_one` (stack.hpp:535-547, 556-568). -/
def consumeOneLoop : LStm R α :=
  .set (fun l => { l with old_tos_pointer := R.K.node (R.K.ptr l.old_tos.v) }) ;;
  .ite (fun l => l.old_tos_pointer.isNone)
    (.set (fun l => { l with result := .popped none }) ;;
     .ret)
    .skip ;;
  .acc (readNextSpec (fun l => l.old_tos_pointer) (fun l h => { l with old_tos_next := h })) ;;
  .set (fun l => { l with new_tos := R.K.pack l.old_tos_next (R.K.next (R.K.tag l.old_tos.v)) }) ;;
  .acc (casTos true) ;;
  .ite (fun l => l.cas)
    consumed
    .skip

/-- `consume_one( f )` (stack.hpp:531-548, 552-569), called by `pop` (stack.hpp:457-478). -/
def consumeOne : LStm R α :=
  .acc (loadTos .consume) ;;
  .forever consumeOneLoop

/-- The first loop of `consume_all_atomic` and `consume_all_atomic_reversed` (stack.hpp:614-623, 654-663, 701-710, 759-768). -/
def takeAllLoop : LStm R α :=
  .set (fun l => { l with old_tos_pointer := R.K.node (R.K.ptr l.old_tos.v) }) ;;
  .ite (fun l => l.old_tos_pointer.isNone)
    (.set (fun l => { l with result := .took [], returned := some 0 }) ;;
     .ret)
    .skip ;;
  .set (fun l => { l with new_tos := R.K.pack (R.K.hnd none) (R.K.next (R.K.tag l.old_tos.v)) }) ;;
  .acc (casTos true) ;;
  .ite (fun l => l.cas) .brk .skip

/-- A loop that applies the functor to the elements of a list and destroys its nodes (stack.hpp:627-642, 667-682, 732-747, 790-805); `w`:
`nodes_to_consume` or `nodes_in_reversed_order`. -/
def applyLoop (w : Loc R.K α → R.K.W) (setW : Loc R.K α → R.K.W → Loc R.K α) : LStm R α :=
  .set (fun l => { l with node_pointer := R.K.node (R.K.ptr (w l)) }) ;;
  .acc (apply fun l => l.node_pointer) ;;
  .set (fun l => { l with element_count := l.element_count + 1 }) ;;
  .acc (readNext (fun l => l.node_pointer) (fun l h => { l with next_node := R.K.node h })) ;;
  .ite (fun l => l.next_node.isNone)
    (destruct (fun l => R.K.node (R.K.ptr (w l))) ;;
     .brk)
    .skip ;;
  .set (fun l => { l with next_handle := R.K.pack (R.K.hnd l.next_node) (R.K.next (R.K.tag (w l))) }) ;;
  destruct (fun l => R.K.node (R.K.ptr (w l))) ;;
  .set (fun l => setW l l.next_handle)

/-- The loop that reverses the list (stack.hpp:716-730, 774-788). -/
def reverseLoop : LStm R α :=
  .set (fun l => { l with node_pointer := R.K.node (R.K.ptr l.nodes_to_consume) }) ;;
  .acc (readNext (fun l => l.node_pointer) (fun l h => { l with next_node := R.K.node h })) ;;
  .acc (setNext (fun l => l.node_pointer) (fun l => R.K.hnd l.last_node_pointer)) ;;
  .set (fun l => { l with last_node_pointer := l.node_pointer }) ;;
  .ite (fun l => l.next_node.isNone)
    (.set (fun l => { l with nodes_in_reversed_order := l.nodes_to_consume }) ;;
     .brk)
    .skip ;;
  .set (fun l => { l with next_handle := R.K.pack (R.K.hnd l.next_node) (R.K.next (R.K.tag l.nodes_to_consume)) }) ;;
  .set (fun l => { l with nodes_to_consume := l.next_handle })

/-- The loop over `nodes_to_consume`. -/
def forwardLoop : LStm R α := applyLoop (fun l => l.nodes_to_consume) (fun l x => { l with nodes_to_consume := x })

/-- The loop over `nodes_in_reversed_order`. -/
def backwardLoop : LStm R α := applyLoop (fun l => l.nodes_in_reversed_order) (fun l x => { l with nodes_in_reversed_order := x })

/-- `consume_all_atomic( f )` (stack.hpp:609-645, 649-685). The result of the model is the list of the elements; the number that is
returned is `returned`. -/
def consumeAllAtomic : LStm R α :=
  .set (fun l => { l with element_count := 0 }) ;;
  .acc (loadTos .consume) ;;
  .forever takeAllLoop ;;
  .set (fun l => { l with nodes_to_consume := l.old_tos.v }) ;;
  .forever forwardLoop ;;
  .set (fun l => { l with result := .took l.applied, returned := some l.element_count }) ;;
  .ret

/-- `consume_all_atomic_reversed( f )` (stack.hpp:696-750, 754-808). -/
def consumeAllAtomicReversed : LStm R α :=
  .set (fun l => { l with element_count := 0 }) ;;
  .acc (loadTos .consume) ;;
  .forever takeAllLoop ;;
  .set (fun l => { l with nodes_to_consume := l.old_tos.v }) ;;
  .set (fun l => { l with last_node_pointer := none }) ;;
  .forever reverseLoop ;;
  .forever backwardLoop ;;
  .set (fun l => { l with result := .took l.applied, returned := some l.element_count }) ;;
  .ret

/-- `empty()` (stack.hpp:815-818). `memory_order_seq_cst` is treated as `memory_order_acquire`. -/
def isEmpty : LStm R α :=
  .acc (loadTos .acquire) ;;
  .set (fun l => { l with result := .isEmpty (R.K.node (R.K.ptr l.old_tos.v)).isNone }) ;;
  .ret

/-- The loop of `reserve< true >( count )` (freelist.hpp:70-74). -/
def reserveLoop : LStm R α :=
  .ite (fun l => l.i == l.count) .brk .skip ;;
  .acc ((port R α).osAllocate fun v n => { v with n := n }) ;;
  .fn (port R α).deallocate ;;
  .set (fun l => { l with i := l.i + 1 })

/-- `reserve< true >( count )` (freelist.hpp:68-75, stack.hpp:222-228). -/
def reserve : LStm R α :=
  .set (fun l => { l with i := 0 }) ;;
  .forever reserveLoop ;;
  .set (fun l => { l with result := .reserved }) ;;
  .ret

/-- A call: if an exception leaves the function, the result is `r`. -/
def call (a : LStm R α) (r : Loc R.K α → Ret α) : LStm R α :=
  .tryCatch (.fn a) (.set fun l => { l with result := r l })

/-- The local variables before a call; words and handles: anything. -/
def Loc.init (w : R.K.W) : Loc R.K α where
  fl := ⟨⟨w, 0⟩, R.K.ptr w, w, false, none, none⟩
  arg := none
  thr := none
  cas := false
  old_tos := ⟨w, 0⟩
  new_tos := w
  old_tos_next := R.K.ptr w
  newnode := none
  new_top_node := none
  end_node := none
  range := []
  it := []
  ret := []
  current_node := none
  next := none
  old_tos_pointer := none
  node_pointer := none
  next_node := none
  last_node_pointer := none
  new_tos_ptr := none
  nodes_to_consume := w
  nodes_in_reversed_order := w
  next_handle := w
  element_count := 0
  i := 0
  count := 0
  applied := []
  result := .threw
  returned := none

/-- The member functions. A range push and `reserve` of a fixed-size stack do not compile or are not allowed. A functor that throws has seen
its last element: the result is what it has seen. -/
def program (R : Rep) (α : Type) : Program (SSt R.K α) (Loc R.K α) (SChoice R.K (Op α) α) (Op α) (Ret α) where
  body _
    | .push b v => some ({ Loc.init R.zero with arg := some v }, call (doPush b) fun _ => .threw)
    | .pushRange b vs => if R.fixed then none else some ({ Loc.init R.zero with range := vs }, call (doPushRange b) fun _ => .threw)
    | .pop thr => some ({ Loc.init R.zero with thr := if thr then some 0 else none }, call consumeOne fun l => .popped l.applied.head?)
    | .consumeAll false thr => some ({ Loc.init R.zero with thr := thr }, call consumeAllAtomic fun l => .took l.applied)
    | .consumeAll true thr => some ({ Loc.init R.zero with thr := thr }, call consumeAllAtomicReversed fun l => .took l.applied)
    | .empty => some (Loc.init R.zero, call isEmpty fun _ => .threw)
    | .reserve k => if R.fixed then none else some ({ Loc.init R.zero with count := k }, call reserve fun _ => .threw)
  result l := l.result

/-- Executions of the program text of a stack constructed with `n` nodes, in which no tag wraps completely between a load and the corresponding
compare-exchange, and in which no empty range is pushed. -/
abbrev TextExec (R : Rep) (n : Nat) (h : History (Op α) (Ret α))
    (C : MConf (SSt R.K α) (TPC (SSt R.K α) (Loc R.K α) (SChoice R.K (Op α) α) (Ret α))) : Prop :=
  MSteps (program R α).mach (Program.ok fun _ o => ∀ b, o ≠ .pushRange b []) ⟨(SConf.initial R n).s, fun _ => .idle⟩ h C

end Verif.Stack.Code
