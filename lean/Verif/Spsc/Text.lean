import Verif.Text
import Verif.Spsc.Sim

/-!
# `include/boost/lockfree/spsc_queue.hpp` as structured programs (C55)

The thread-safe member functions of `ringbuffer_base`, line by line, in the language of `Text`: each assignment, branch, `break` and `return` is a
step of its own, arithmetic is that of `std::size_t`, and the loop of `next_index` is a loop. `Spsc/TextSim` shows that this text and the machine of
`Spsc/Model` agree. The accesses to memory are those of `Spsc/Model`.

The wrappers in `compile_time_sized_ringbuffer`, `runtime_sized_ringbuffer` and `spsc_queue` only pass their arguments on (`Spsc/Model`). Pointers
into the buffer are slot numbers, iterators are positions in the range.
-/

namespace Verif.Spsc.Code
open Lin Text

variable {α : Type}

/-- Local variables and parameters, with their names in the code. -/
structure Loc (α : Type) where
  /-- of `next_index` -/
  arg : SizeT
  /-- `ret` of `next_index`, `read_available`, `write_available` -/
  ret : SizeT
  write_index : SizeT
  read_index : SizeT
  next : SizeT
  avail : SizeT
  /-- `t` of `push` -/
  t : Option α
  /-- the range `[begin, end)` -/
  range : List α
  input_count : SizeT
  new_write_index : SizeT
  /-- `last`, `midpoint` of the range `push` -/
  last : Nat
  midpoint : Nat
  count0 : SizeT
  count1 : SizeT
  output_count : SizeT
  new_read_index : SizeT
  /-- of `std::uninitialized_copy( first, last, d_first )` -/
  src : Nat
  src_last : Nat
  d_first : Nat
  current : Nat
  /-- `first`, `last` of `copy_and_delete` and `run_functor_and_delete` -/
  first : Nat
  last_ptr : Nat
  /-- not a variable of the program: the compiler evaluates the second argument first (spsc_queue.hpp:369) -/
  swapped : Bool
  /-- what was written to the output, or passed to the functor -/
  out : List α
  result : Ret α

abbrev LStm (α : Type) := Stm (St α) (Loc α) (Choice α)
abbrev LAcc (α : Type) := Access (St α) (Loc α) (Choice α)

/-! ### Accesses -/

/-- If `sc`: loads return the latest store. -/
def latest (sc : Bool) (j : Nat) : Choice α → Bool
  | .go i => !sc || i == j
  | _ => true

/-- `write_index_.load( order )`; `acquire`: whether the order is `memory_order_acquire`. -/
def loadWrite (sc acquire : Bool) (store : Loc α → SizeT → Loc α) : LAcc α where
  run t s l
    | .go j => (if t = 0 then s.loadWP j else s.loadWC acquire j).map fun x => (x.1, store l x.2, .next)
    | _ => none
  ok s _ ch := latest sc s.wlast ch

/-- `read_index_.load( order )`. -/
def loadRead (sc acquire : Bool) (store : Loc α → SizeT → Loc α) : LAcc α where
  run t s l
    | .go j => (if t = 0 then s.loadRP acquire j else s.loadRC j).map fun x => (x.1, store l x.2, .next)
    | _ => none
  ok s _ ch := latest sc s.rlast ch

/-- The first of the two loads in `empty( write_index_.load( … ), read_index_.load( … ) )` (spsc_queue.hpp:369), both relaxed: their order is
unspecified. -/
def loadEither (sc : Bool) : LAcc α where
  run t s l
    | .go j => (if t = 0 then s.loadWP j else s.loadWC false j).map fun x => (x.1, { l with write_index := x.2, swapped := false }, .next)
    | .swap j => (if t = 0 then s.loadRP false j else s.loadRC j).map fun x => (x.1, { l with read_index := x.2, swapped := true }, .next)
    | _ => none
  ok s _ ch := match ch with
    | .swap j => !sc || j == s.rlast
    | ch => latest sc s.wlast ch

/-- `write_index_.store( x, memory_order_release )`; `published`: the elements this makes available (ghost). -/
def storeWrite (x : Loc α → SizeT) (published : Loc α → List α) : LAcc α where
  run _ s l
    | .go _ => some (s.storeW (x l) (published l), l, .next)
    | _ => none

/-- `read_index_.store( x, memory_order_release )`; `count`: how many slots this releases (ghost). -/
def storeRead (x : Loc α → SizeT) (count : Loc α → Nat) : LAcc α where
  run _ s l
    | .go _ => some (s.storeR (x l) (count l), l, .next)
    | _ => none

/-- `new ( buffer + i ) T( v )`. The copy constructor may throw; `covered`: such an exception is covered by the theorems (`okSafe`). -/
def construct (cfg : Cfg) (i : Loc α → Nat) (v : Loc α → Option α) (covered : Bool) : LAcc α where
  run _ s l
    | .go _ =>
      match (v l).bind fun v => s.construct cfg (i l) v with
      | none => some (s, l, .ub)
      | some s' => some (s', l, .next)
    | .throw => some (s, l, .throws)
    | _ => none
  ok _ _ ch := match ch with
    | .throw => covered
    | _ => true

/-- `( buffer + i )->~T()`. -/
def destroy (cfg : Cfg) (i : Loc α → Nat) : LAcc α where
  run t s l
    | .go _ =>
      match if t = 0 then s.destroyP cfg (i l) else s.destroyC cfg (i l) with
      | none => some (s, l, .ub)
      | some s' => some (s', l, .next)
    | _ => none

/-- `functor( buffer[ i ] )` or `*out = buffer[ i ]`, which may throw. The theorems cover an exception only before any element was taken
(`okSafe`). -/
def take (cfg : Cfg) (i : Loc α → Nat) : LAcc α where
  run _ s l
    | .go _ =>
      match s.readC cfg (i l) with
      | none => some (s, l, .ub)
      | some (s', v) => some ({ s' with out := s'.out ++ [v] }, { l with out := l.out ++ [v] }, .next)
    | .throw =>
      match s.readC cfg (i l) with
      | none => some (s, l, .ub)
      | some (s', _) => some (s', l, .throws)
    | _ => none
  ok _ l ch := match ch with
    | .throw => l.out.isEmpty
    | _ => true

/-- The caller reads the element `front()` refers to. -/
def readFront (cfg : Cfg) : LAcc α where
  run _ s l
    | .go _ =>
      match s.readC cfg l.read_index.toNat with
      | none => some (s, l, .ub)
      | some (s', v) => some (s', { l with result := .front v }, .next)
    | _ => none

/-! ### Member functions -/

section
variable (cfg : Cfg) (sc : Bool)

/-- The loop of `next_index` (spsc_queue.hpp:68-69). -/
def nextLoop : LStm α :=
  .ite (fun l => decide (l.ret ≥ cfg.size))
    (.set fun l => { l with ret := l.ret - cfg.size })
    .brk

/-- `next_index( arg, max_size )` (spsc_queue.hpp:65-71). -/
def nextIndexFn : LStm α :=
  .fn (
    .set (fun l => { l with ret := l.arg + 1 }) ;;
    .forever (nextLoop cfg) ;;
    .ret)

/-- `read_available( write_index, read_index, max_size )` (spsc_queue.hpp:73-80). -/
def readAvailFn : LStm α :=
  .fn (
    .ite (fun l => decide (l.write_index ≥ l.read_index))
      (.set (fun l => { l with ret := l.write_index - l.read_index }) ;;
       .ret)
      .skip ;;
    .set (fun l => { l with ret := l.write_index + cfg.size - l.read_index }) ;;
    .ret)

/-- `write_available( write_index, read_index, max_size )` (spsc_queue.hpp:82-88). -/
def writeAvailFn : LStm α :=
  .fn (
    .set (fun l => { l with ret := l.read_index - l.write_index - 1 }) ;;
    .ite (fun l => decide (l.write_index ≥ l.read_index))
      (.set fun l => { l with ret := l.ret + cfg.size })
      .skip ;;
    .ret)

/-- `read_available( max_size )` (spsc_queue.hpp:90-95). -/
def readAvailable : LStm α :=
  .acc (loadWrite sc true fun l x => { l with write_index := x }) ;;
  .acc (loadRead sc false fun l x => { l with read_index := x }) ;;
  readAvailFn cfg

/-- `write_available( max_size )` (spsc_queue.hpp:97-102). -/
def writeAvailable : LStm α :=
  .acc (loadWrite sc false fun l x => { l with write_index := x }) ;;
  .acc (loadRead sc true fun l x => { l with read_index := x }) ;;
  writeAvailFn cfg

/-- The value of `read_available( max_size )` is the result of the call. -/
def returnRead : LStm α := .set fun l => { l with result := .readAvail l.ret.toNat }

/-- The value of `write_available( max_size )` is the result of the call. -/
def returnWrite : LStm α := .set fun l => { l with result := .writeAvail l.ret.toNat }

/-- `push( t, buffer, max_size )` (spsc_queue.hpp:104-117). -/
def push : LStm α :=
  .acc (loadWrite sc false fun l x => { l with write_index := x }) ;;
  .set (fun l => { l with arg := l.write_index }) ;;
  nextIndexFn cfg ;;
  .set (fun l => { l with next := l.ret }) ;;
  .acc (loadRead sc true fun l x => { l with read_index := x }) ;;
  .ite (fun l => l.next == l.read_index)
    (.set (fun l => { l with result := .pushed false }) ;;
     .ret)
    .skip ;;
  .acc (construct cfg (fun l => l.write_index.toNat) (fun l => l.t) true) ;;
  .acc (storeWrite (fun l => l.next) fun l => l.t.toList) ;;
  .set (fun l => { l with result := .pushed true }) ;;
  .ret

/-- The loop of `std::uninitialized_copy`. -/
def copyLoop (covered : Bool) : LStm α :=
  .ite (fun l => l.src == l.src_last) .brk .skip ;;
  .acc (construct cfg (fun l => l.current) (fun l => l.range[l.src]?) covered) ;;
  .set (fun l => { l with src := l.src + 1, current := l.current + 1 })

/-- What `std::uninitialized_copy` does if an exception is thrown: destroy what was constructed. -/
def undoLoop : LStm α :=
  .ite (fun l => l.d_first == l.current) .brk .skip ;;
  .acc (destroy cfg fun l => l.d_first) ;;
  .set (fun l => { l with d_first := l.d_first + 1 })

/-- The handler in `std::uninitialized_copy`. -/
def undo : LStm α :=
  .forever (undoLoop cfg) ;;
  .rethrow

/-- `std::uninitialized_copy( range + src, range + stop, buffer + dst )`. -/
def uninitializedCopy (covered : Bool) (src stop dst : Loc α → Nat) : LStm α :=
  .set (fun l => { l with src := src l, src_last := stop l, d_first := dst l, current := dst l }) ;;
  .fn (
    .tryCatch
      (.forever (copyLoop cfg covered))
      (undo cfg))

/-- Lines 143-150 of the range `push`: two sections. -/
def copyTwo : LStm α :=
  .set (fun l => { l with count0 := cfg.size - l.write_index }) ;;
  .set (fun l => { l with midpoint := l.count0.toNat }) ;;
  uninitializedCopy cfg true (fun _ => 0) (fun l => l.midpoint) (fun l => l.write_index.toNat) ;;
  uninitializedCopy cfg false (fun l => l.midpoint) (fun l => l.last) (fun _ => 0) ;;
  .set (fun l => { l with new_write_index := l.new_write_index - cfg.size })

/-- Lines 152-155 of the range `push`. -/
def copyOne : LStm α :=
  uninitializedCopy cfg true (fun _ => 0) (fun l => l.last) (fun l => l.write_index.toNat) ;;
  .ite (fun l => l.new_write_index == cfg.size)
    (.set fun l => { l with new_write_index := 0 })
    .skip

/-- Lines 158-159 of the range `push`. -/
def publish : LStm α :=
  .acc (storeWrite (fun l => l.new_write_index) fun l => l.range.take l.input_count.toNat) ;;
  .set (fun l => { l with result := .pushedMany l.last }) ;;
  .ret

/-- `std::min( a, b )`. -/
def minSize (a b : SizeT) : SizeT := if b < a then b else a

/-- `push( begin, end, internal_buffer, max_size )` (spsc_queue.hpp:124-160); the result is the distance of the returned iterator from `begin`, as
in 119-122. -/
def pushRange : LStm α :=
  .acc (loadWrite sc false fun l x => { l with write_index := x }) ;;
  .acc (loadRead sc true fun l x => { l with read_index := x }) ;;
  writeAvailFn cfg ;;
  .set (fun l => { l with avail := l.ret }) ;;
  .ite (fun l => l.avail == 0)
    (.set (fun l => { l with result := .pushedMany 0 }) ;;
     .ret)
    .skip ;;
  .set (fun l => { l with input_count := BitVec.ofNat 64 l.range.length }) ;;
  .set (fun l => { l with input_count := minSize l.input_count l.avail }) ;;
  .set (fun l => { l with new_write_index := l.write_index + l.input_count }) ;;
  .set (fun l => { l with last := l.input_count.toNat }) ;;
  .ite (fun l => decide (l.write_index + l.input_count > cfg.size))
    (copyTwo cfg)
    (copyOne cfg) ;;
  publish

/-- `consume_one( functor, buffer, max_size )` (spsc_queue.hpp:162-194), also called by `pop`. -/
def consumeOne : LStm α :=
  .acc (loadWrite sc true fun l x => { l with write_index := x }) ;;
  .acc (loadRead sc false fun l x => { l with read_index := x }) ;;
  .ite (fun l => l.write_index == l.read_index)
    (.set (fun l => { l with result := .popped none }) ;;
     .ret)
    .skip ;;
  .acc (take cfg fun l => l.read_index.toNat) ;;
  .acc (destroy cfg fun l => l.read_index.toNat) ;;
  .set (fun l => { l with arg := l.read_index }) ;;
  nextIndexFn cfg ;;
  .set (fun l => { l with next := l.ret }) ;;
  .acc (storeRead (fun l => l.next) fun _ => 1) ;;
  .set (fun l => { l with result := .popped l.out.head? }) ;;
  .ret

/-- The loop of `std::copy( first, last, out )` (spsc_queue.hpp:391). -/
def stdCopyLoop : LStm α :=
  .ite (fun l => l.first == l.last_ptr) .brk .skip ;;
  .acc (take cfg fun l => l.first) ;;
  .set (fun l => { l with first := l.first + 1 })

/-- The loops of `copy_and_delete` (spsc_queue.hpp:393-396) and `run_functor_and_delete` (spsc_queue.hpp:404-407, 413-416). -/
def takeLoop : LStm α :=
  .ite (fun l => l.first == l.last_ptr) .brk .skip ;;
  .acc (take cfg fun l => l.first) ;;
  .acc (destroy cfg fun l => l.first) ;;
  .set (fun l => { l with first := l.first + 1 })

/-- The loop of `copy_and_delete` (`copy`) or `run_functor_and_delete`. -/
def sectionLoop (copy : Bool) : LStm α := if copy && cfg.trivial then stdCopyLoop cfg else takeLoop cfg

/-- `copy_and_delete( first, last, out )` (spsc_queue.hpp:387-399; `copy`), `run_functor_and_delete( first, last, functor )`
(spsc_queue.hpp:401-417). -/
def takeSection (copy : Bool) (first last : Loc α → Nat) : LStm α :=
  .set (fun l => { l with first := first l, last_ptr := last l }) ;;
  .fn (.forever (sectionLoop cfg copy))

/-- Lines 210-218 of `consume_all`, and the same in its siblings: two sections. -/
def takeTwo (copy : Bool) : LStm α :=
  .set (fun l => { l with count0 := cfg.size - l.read_index }) ;;
  .set (fun l => { l with count1 := l.output_count - l.count0 }) ;;
  takeSection cfg copy (fun l => l.read_index.toNat) (fun _ => cfg.size.toNat) ;;
  takeSection cfg copy (fun _ => 0) (fun l => l.count1.toNat) ;;
  .set (fun l => { l with new_read_index := l.new_read_index - cfg.size })

/-- Lines 220-224 of `consume_all`, and the same in its siblings. -/
def takeOne (copy : Bool) : LStm α :=
  takeSection cfg copy (fun l => l.read_index.toNat) (fun l => l.read_index.toNat + l.output_count.toNat) ;;
  .ite (fun l => l.new_read_index == cfg.size)
    (.set fun l => { l with new_read_index := 0 })
    .skip

/-- Lines 227-228 of `consume_all`, and the same in its siblings. What the caller gets are the first `output_count` elements of its buffer. -/
def release : LStm α :=
  .acc (storeRead (fun l => l.new_read_index) fun l => l.output_count.toNat) ;;
  .set (fun l => { l with result := .poppedMany (l.out.take l.output_count.toNat) }) ;;
  .ret

/-- `consume_all( functor, … )` (spsc_queue.hpp:196-264; neither `copy` nor `limited`), `pop( output_buffer, output_count, … )`
(spsc_queue.hpp:266-297; both), `pop_to_output_iterator( it, … )` (spsc_queue.hpp:299-328; `copy`; its `avail` plays the role of
`output_count`). -/
def takeMany (copy limited : Bool) : LStm α :=
  .acc (loadWrite sc true fun l x => { l with write_index := x }) ;;
  .acc (loadRead sc false fun l x => { l with read_index := x }) ;;
  readAvailFn cfg ;;
  .set (fun l => { l with avail := l.ret }) ;;
  .ite (fun l => l.avail == 0)
    (.set (fun l => { l with result := .poppedMany [] }) ;;
     .ret)
    .skip ;;
  .set (fun l => { l with output_count := if limited then minSize l.output_count l.avail else l.avail }) ;;
  .set (fun l => { l with new_read_index := l.read_index + l.output_count }) ;;
  .ite (fun l => decide (l.read_index + l.output_count > cfg.size))
    (takeTwo cfg copy)
    (takeOne cfg copy) ;;
  release

/-- `front( internal_buffer )` (spsc_queue.hpp:330-340), and what the caller does with the reference. -/
def frontRef : LStm α :=
  .acc (loadRead sc false fun l x => { l with read_index := x }) ;;
  .acc (readFront cfg)

/-- `front()` (spsc_queue.hpp:1012-1023); `checked`: `BOOST_ASSERT` is active. -/
def front (checked : Bool) : LStm α :=
  if checked then
    readAvailable cfg sc ;;
    .ite (fun l => l.ret == 0)
      (.set (fun l => { l with result := .asserted }) ;;
       .ret)
      .skip ;;
    frontRef cfg sc
  else frontRef cfg sc

/-- `empty()` (spsc_queue.hpp:367-370). -/
def isEmpty : LStm α :=
  .acc (loadEither sc) ;;
  .ite (fun l => l.swapped)
    (.acc (loadWrite sc false fun l x => { l with write_index := x }))
    (.acc (loadRead sc false fun l x => { l with read_index := x })) ;;
  .set (fun l => { l with result := .isEmpty (l.write_index == l.read_index) })

end

/-- A call: if an exception leaves the function, the result is `threw`. -/
def call (a : LStm α) : LStm α :=
  .tryCatch (.fn a) (.set fun l => { l with result := .threw })

/-- The local variables before a call. -/
def Loc.init : Loc α where
  arg := 0
  ret := 0
  write_index := 0
  read_index := 0
  next := 0
  avail := 0
  t := none
  range := []
  input_count := 0
  new_write_index := 0
  last := 0
  midpoint := 0
  count0 := 0
  count1 := 0
  output_count := 0
  new_read_index := 0
  src := 0
  src_last := 0
  d_first := 0
  current := 0
  first := 0
  last_ptr := 0
  swapped := false
  out := []
  result := .threw

/-- What a call executes. -/
def body (cfg : Cfg) (sc : Bool) : Op α → Option (Loc α × LStm α)
  | .push v => some ({ Loc.init with t := some v }, call (push cfg sc))
  | .pushMany vs => some ({ Loc.init with range := vs }, call (pushRange cfg sc))
  | .writeAvail => some (Loc.init, call (writeAvailable cfg sc ;; returnWrite))
  | .isEmpty => some (Loc.init, call (isEmpty sc))
  | .pop => some (Loc.init, call (consumeOne cfg sc))
  | .popMany copy none => some (Loc.init, call (takeMany cfg sc copy false))
  | .popMany false (some _) => none
  | .popMany true (some n) => some ({ Loc.init with output_count := BitVec.ofNat 64 n }, call (takeMany cfg sc true true))
  | .readAvail => some (Loc.init, call (readAvailable cfg sc ;; returnRead))
  | .front checked => some (Loc.init, call (front cfg sc checked))

/-- Thread 0 is the producer, thread 1 the consumer (spsc_queue.hpp:821-926, the notes "only one thread is allowed to …"). -/
def role : Nat → Op α → Bool
  | 0, .push _ | 0, .pushMany _ | 0, .writeAvail | 0, .isEmpty => true
  | 1, .isEmpty | 1, .pop | 1, .popMany _ _ | 1, .readAvail | 1, .front _ => true
  | _, _ => false

/-- The member functions. `sc`: loads are assumed to return the latest store. A thread may at any time synchronise with the other one by means
outside the queue. -/
def program (α : Type) (cfg : Cfg) (sc : Bool) : Program (St α) (Loc α) (Choice α) (Op α) (Ret α) where
  body t o := if role t o then body cfg sc o else none
  result l := l.result
  env
    | 0, s, .sync => some { s with vp := s.vp.join s.vc }
    | 1, s, .sync => some { s with vc := s.vc.join s.vp }
    | _, _, _ => none

/-- Lengths are of type `std::size_t`. `consume_all` has no limit. -/
def fits : Op α → Prop
  | .pushMany vs => vs.length < 2 ^ 64
  | .popMany true (some n) => n < 2 ^ 64
  | .popMany false (some _) => False
  | _ => True

/-- The calls covered: `front()` without `BOOST_ASSERT` has a precondition (`okSafe`). -/
def okCall (s : St α) (o : Op α) : Prop := fits o ∧ (o = .front false → KnowsNonempty s)

/-- Configurations of the program text. -/
abbrev TConf (α : Type) := MConf (St α) (TPC (St α) (Loc α) (Choice α) (Ret α))

/-- The states in which the life of a queue starts, as `Spsc.Start`. -/
inductive TextStart (cfg : Cfg) (sc : Bool) : St α → Prop where
  | fresh : TextStart cfg sc St.initial
  | reset {s h} {C : TConf α} : TextStart cfg sc s → MSteps (program α cfg sc).mach (Program.ok okCall) ⟨s, fun _ => .idle⟩ h C →
      (∀ t, C.pc t = .idle) → cfg.trivial = true → TextStart cfg sc C.s.reset

/-- Executions of the program text, any interleaving of the two threads. `sc = false`: release/acquire memory with stale loads. `h` is the history
since the construction of the queue, or the last `reset()` of the kind described at `Spsc.Start`. -/
def TextExec (cfg : Cfg) (sc : Bool) (h : History (Op α) (Ret α)) (C : TConf α) : Prop :=
  ∃ s, TextStart cfg sc s ∧ MSteps (program α cfg sc).mach (Program.ok okCall) ⟨s, fun _ => .idle⟩ h C

end Verif.Spsc.Code
