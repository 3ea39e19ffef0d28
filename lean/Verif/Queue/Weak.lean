import Verif.Weak
import Verif.WeakLin
import Verif.Queue.Model

/-!
# Model of `include/boost/lockfree/queue.hpp` under the release/acquire memory model

The program is the one of `Verif.Queue.Model`: the same program counters and the same steps `tstep`. What
changes is the memory. `head_`, `tail_` (queue.hpp:576, 579), `pool_` (freelist.hpp:257, 613) and the `next`
words of all nodes (queue.hpp:132) are atomic objects with a list of messages; a load may return an old message,
and only a successful compare-exchange acts on the newest one.

Payloads are not atomic: construction and destruction of a payload, and the copy made by the `pop` that
succeeds, must happen after all earlier such accesses to the node; otherwise there is a data race and the
behaviour is undefined (PC `err`). The copy made by a `pop` before its compare-exchange (queue.hpp:446)
returns an arbitrary value if it is not ordered after all these accesses.

The first word of a node is also the link of the freelist, which accesses it non-atomically:
* the read in `allocate` (freelist.hpp:187, 553-555) returns an arbitrary value unless it is ordered after
  everything written to the node;
* the write in `deallocate` (freelist.hpp:238, 595) may be concurrent with an atomic load of the same word by a
  `push` or a `pop` that uses an old value of `tail_` or `head_` (queue.hpp:347, 426). By the letter of the C++
  standard this is undefined behaviour. In the model the load may return an arbitrary value (`torn`).
  What such a load synchronises with is a parameter: if `rel` is true, the load is ordered after
  everything that precedes the write, as if the write were a release store; if `rel` is false, it
  is not.

Between its calls, a client thread may release its view to, and acquire views from, other client threads
(`post`, `wait`).
-/

namespace Verif.Queue
open Lin

variable {α : Type}

/-- The atomic objects. -/
inductive Loc where
  | head
  | tail
  | pool
  | next (n : Nat)
deriving DecidableEq

/-- Shared memory. `s` holds the payloads and the newest values of the atomic objects. -/
structure WSt (α : Type) where
  s : St α
  /-- message number `i` of an object -/
  msg : Loc → Nat → Msg Loc
  /-- number of the newest message -/
  top : Loc → Nat
  /-- view of every thread -/
  view : Nat → View Loc
  /-- view of the message read by the last load: what a `memory_order_consume` load orders before the reads
  through the loaded pointer -/
  dep : Nat → View Loc
  /-- accesses to every node other than through its `next` word, except speculative reads: thread and number
  of its step -/
  acc : Nat → List (Nat × Nat)
  /-- views released by client threads -/
  posts : List (View Loc)
  /-- message `i` of `next n` was written non-atomically -/
  pl : Nat → Nat → Bool

/-- Value of an atomic object in a state. -/
def St.word (s : St α) : Loc → Snap
  | .head => s.headSnap
  | .tail => s.tailSnap
  | .pool => s.heap.poolSnap
  | .next n => s.nextSnap n

/-- The state as it appears to a load that returns `x`. -/
def St.withWord (s : St α) (x : Snap) : Loc → St α
  | .head => { s with head := x.v, headVer := x.ver }
  | .tail => { s with tail := x.v, tailVer := x.ver }
  | .pool => { s with heap := { s.heap with pool := x.v, poolVer := x.ver } }
  | .next n => { s with heap := { s.heap with next := upd s.heap.next n x.v, nver := upd s.heap.nver n x.ver } }

/-- Resolution of nondeterminism. -/
inductive WChoice (α : Type) where
  /-- a step that reads no atomic object, or a successful compare-exchange -/
  | step (ch : QChoice α)
  /-- a load or a failing compare-exchange reads message `i`; `alt`: the other order of evaluation in `empty` -/
  | read (alt : Bool) (i : Nat)
  /-- a load reads message `i`, but returns `x`, since it is not ordered after the non-atomic write of message `k` -/
  | torn (k i : Nat) (x : Tagged)
  /-- a racing read of a freelist link returns `x` -/
  | race (x : Option Nat)
  /-- a step that only tests local variables, without being counted as a step of the thread -/
  | skip
  /-- client code releases its view -/
  | post
  /-- client code acquires the `k`-th released view -/
  | wait (k : Nat)

/-- Compare-exchanges of the program and the expected value (queue.hpp:354, 356, 361, 436, 449; freelist.hpp:190,
240, 557, 597): all have the default order `seq_cst`. -/
def casOf : PC α → Option (Loc × Snap)
  | .alloc _ _ (.cas o _) => some (.pool, o)
  | .free _ _ (.cas o) => some (.pool, o)
  | .pCas _ T N => T.v.ptr.map fun x => (.next x, N)
  | .swing _ T _ => some (.tail, T)
  | .cCas H _ _ => some (.head, H)
  | _ => none

/-- Loads of the program with their memory orders: consume in the freelist (freelist.hpp:175, 233, 545, 591),
relaxed in the node constructor (queue.hpp:120), acquire in `do_push` and `pop` (queue.hpp:345-350, 422-429),
seq_cst in `empty` (queue.hpp:303); and the corresponding choice of the sequentially consistent step. -/
def loadOf (alt : Bool) : PC α → Option (Loc × Order × QChoice α)
  | .alloc _ _ .load => some (.pool, .consume, .base .go)
  | .free _ _ .load => some (.pool, .consume, .base .go)
  | .nload _ _ n => some (.next n, .relaxed, .base .go)
  | .pTail _ => some (.tail, .acquire, .base .go)
  | .pNext _ T => T.v.ptr.map fun x => (.next x, .acquire, .base .go)
  | .pCheck _ _ _ => some (.tail, .acquire, .base .go)
  | .cHead => some (.head, .acquire, .base .go)
  | .cTail _ => some (.tail, .acquire, .base .go)
  | .cNext H _ => H.v.ptr.map fun x => (.next x, .acquire, .base .go)
  | .cCheck _ _ _ => some (.head, .acquire, .base .go)
  | .eHead => if alt then some (.tail, .acquire, .base .spur) else some (.head, .acquire, .base .go)
  | .eTail _ => some (.tail, .acquire, .base .go)
  | .eHead2 _ => some (.head, .acquire, .base .go)
  | _ => none

/-- What the next step does if it fails at a compare-exchange (`seq_cst`, hence acquire): `compare_exchange_weak` may fail
whatever it reads, `compare_exchange_strong` (queue.hpp:356, 361, 436) only if it reads another value. -/
def failOf (x : Snap) (p : PC α) : Option (QChoice α) :=
  match p with
  | .swing _ T _ => if x.v = T.v then none else some (.base .go)
  | _ => some (.base .spur)

/-- Nodes accessed by the next step other than by atomic accesses and speculative reads. A `pop` that is about to
succeed has read the payload of the next node. -/
def touch : PC α → List Nat
  | .constr _ _ n => [n]
  | .cCas _ y _ => [y]
  | .cDestroy n _ => [n]
  | .free _ n (.set _) => [n]
  | _ => []

/-- Stores to a `next` word: the node, and whether the store is atomic: `next.store(new_next, release)`
(queue.hpp:122), and the freelist's `set_ptr` / `set_index` (freelist.hpp:238, 595). -/
def storeOf : PC α → Option (Nat × Bool)
  | .nstore _ _ n _ => some (n, true)
  | .free _ n (.set _) => some (n, false)
  | _ => none

/-- The speculative read of a link in `allocate` (freelist.hpp:187, 553-555); the node and the continuation with the
value read. -/
def specOf : PC α → Option (Nat × (Option Nat → PC α))
  | .alloc b v (.test o) => o.v.ptr.map fun n => (n, fun x => .alloc b v (.cas o x))
  | _ => none

/-- Steps that only test local variables: of the handle in `allocate` (freelist.hpp:178-185, 549-550) if it is null and no node is requested from the
allocator, and the end of the loop of `reserve` (freelist.hpp:70). -/
def quiet (cfg : Cfg) : PC α → Option (PC α)
  | .alloc b _ (.test o) => if o.v.ptr.isNone && (cfg.fixed || b) then some (.ret (.pushed false)) else none
  | .rsv 0 => some (.ret .reserved)
  | _ => none

/-- The atomic loads of a link that may be concurrent with a non-atomic write of the freelist (queue.hpp:347, 426); the
node and the continuation with the value read. -/
def tornOf : PC α → Option (Nat × (Snap → PC α))
  | .pNext n T => T.v.ptr.map fun x => (x, fun N => .pCheck n T N)
  | .cNext H T => H.v.ptr.map fun x => (x, fun N => .cCheck H T N)
  | _ => none

/-- The accesses to the nodes after a step of `t` with accesses to the nodes `ns` and to newly allocated ones. -/
def WSt.touched (w : WSt α) (t : Nat) (ns : List Nat) (s' : St α) (n : Nat) : List (Nat × Nat) :=
  if n ∈ ns ∨ (w.s.heap.nalloc ≤ n ∧ n < s'.heap.nalloc) then (t, (w.view t).vc t + 1) :: w.acc n else w.acc n

/-- The view of `t` after reading message `i` of `l`. -/
def WSt.readView (w : WSt α) (t : Nat) (l : Loc) (i : Nat) : Order → View Loc
  | .acquire => (((w.view t).join (w.msg l i).view).bump l i).tick t
  | _ => ((w.view t).bump l i).tick t

/-- Effect of reading message `i` of `l`. -/
def WSt.recv (w : WSt α) (t : Nat) (l : Loc) (i : Nat) (ord : Order) : WSt α :=
  { w with
    view := upd w.view t (w.readView t l i ord)
    dep := upd w.dep t
      (match ord with
       | .relaxed => .bot
       | _ => (w.msg l i).view) }

/-- The view of `t` after a successful compare-exchange of `l`. -/
def WSt.rmwView (w : WSt α) (t : Nat) (l : Loc) : View Loc :=
  (((w.view t).join (w.msg l (w.top l)).view).bump l (w.top l + 1)).tick t

/-- Effect of a successful compare-exchange of `l` with new memory `s'`: acquires the view of the newest message
and releases the view of the thread with the new one. -/
def WSt.rmw (w : WSt α) (t : Nat) (l : Loc) (ns : List Nat) (s' : St α) : WSt α :=
  { w with
    s := s'
    msg := upd w.msg l (upd (w.msg l) (w.top l + 1) ⟨s'.word l, w.rmwView t l⟩)
    top := upd w.top l (w.top l + 1)
    view := upd w.view t (w.rmwView t l)
    acc := w.touched t ns s' }

/-- The view of `t` after a store to `l`. -/
def WSt.storeView (w : WSt α) (t : Nat) (l : Loc) : View Loc := ((w.view t).bump l (w.top l + 1)).tick t

/-- Effect of a store to `next n`; `at`: it is atomic; `rel`: readers are ordered after what precedes it. -/
def WSt.store (w : WSt α) (t n : Nat) (at' rel : Bool) (ns : List Nat) (s' : St α) : WSt α :=
  { w with
    s := s'
    msg := upd w.msg (.next n) (upd (w.msg (.next n)) (w.top (.next n) + 1)
      ⟨s'.word (.next n), if rel then w.storeView t (.next n) else .bot⟩)
    top := upd w.top (.next n) (w.top (.next n) + 1)
    view := upd w.view t (w.storeView t (.next n))
    acc := w.touched t ns s'
    pl := upd w.pl n (upd (w.pl n) (w.top (.next n) + 1) (!at')) }

/-- Effect of a step without access to an atomic object. -/
def WSt.plain (w : WSt α) (t : Nat) (ns : List Nat) (s' : St α) : WSt α :=
  { w with
    s := s'
    view := upd w.view t ((w.view t).tick t)
    acc := w.touched t ns s' }

/-- An event together with the view of its thread. -/
def stamp (v : View Loc) : Event (Op α) (Ret α) → Event (Op α × View Loc) (Ret α × View Loc)
  | .inv t o => .inv t (o, v)
  | .res t r => .res t (r, v)

/-- The copy of the payload at `copy_payload(next_ptr->data, ret)` (queue.hpp:446) if it is not ordered after all
accesses to the node, or if there is no payload. -/
def garbageOf (w : WSt α) (t : Nat) : PC α → QChoice α → Option (PC α)
  | .cData H y, .garbage v =>
    if (w.view t).knows (w.acc y) ∧ (w.s.heap.data y).isSome then none else some (.cCas H y v)
  | _, _ => none

/-- Steps of the sequentially consistent program that make sense as steps without atomic read: at `copy_payload`, the value of the
payload is read only if the read is ordered. -/
def ordered (w : WSt α) (t : Nat) : PC α → QChoice α → Bool
  | .cData _ y, .base .go => (w.view t).knows (w.acc y)
  | _, .garbage _ => false
  | _, _ => true

/-- One step of thread `t`. -/
def wstep (cfg : Cfg) (rel : Bool) (t : Nat) (w : WSt α) (p : PC α) :
    WChoice α → Option (WSt α × PC α × Option (Event (Op α × View Loc) (Ret α × View Loc)))
  | .step ch =>
    match casOf p with
    | some (l, o) =>
      match ch with
      | .base .go =>
        if (w.s.word l).v = o.v then
          if (touch p).all fun n => (w.view t).knows (w.acc n) then
            (tstep cfg t w.s p (.base .go)).map fun r => (w.rmw t l (touch p) r.1, r.2.1, none)
          else some (w.plain t [] w.s, .err, none)
        else none
      | _ => none
    | none =>
      match loadOf false p with
      | some _ => none
      | none =>
        if (touch p).all fun n => (w.view t).knows (w.acc n) then
          match storeOf p with
          | some (n, at') =>
            (tstep cfg t w.s p ch).map fun r => (w.store t n at' (at' || rel) (touch p) r.1, r.2.1, none)
          | none =>
            match garbageOf w t p ch with
            | some p' => some (w.plain t [] w.s, p', none)
            | none =>
              if ordered w t p ch then
                (tstep cfg t w.s p ch).map fun r =>
                  (w.plain t (touch p) r.1, r.2.1, r.2.2.map (stamp ((w.view t).tick t)))
              else none
        else some (w.plain t [] w.s, .err, none)
  | .read alt i =>
    match loadOf alt p with
    | some (l, ord, ch) =>
      if (w.view t).seen l ≤ i ∧ i ≤ w.top l then
        (tstep cfg t (w.s.withWord (w.msg l i).val l) p ch).map fun r => (w.recv t l i ord, r.2.1, none)
      else none
    | none =>
      match casOf p with
      | none => none
      | some (l, _) =>
        match failOf (w.msg l i).val p with
        | none => none
        | some ch =>
          if (w.view t).seen l ≤ i ∧ i ≤ w.top l then
            (tstep cfg t (w.s.withWord (w.msg l i).val l) p ch).map fun r => (w.recv t l i .acquire, r.2.1, none)
          else none
  | .torn k i x =>
    match tornOf p with
    | none => none
    | some (n, f) =>
      if (w.view t).seen (.next n) ≤ k ∧ k ≤ i ∧ i ≤ w.top (.next n) ∧ w.pl n k = true then
        some (w.recv t (.next n) i .acquire, f ⟨x, (w.msg (.next n) i).val.ver⟩, none)
      else none
  | .race x =>
    match specOf p with
    | none => none
    | some (n, k) =>
      if ((w.view t).join (w.dep t)).knows (w.acc n) ∧
          w.top (.next n) ≤ ((w.view t).join (w.dep t)).seen (.next n) then none
      else some (w.plain t [] w.s, k x, none)
  | .skip => (quiet cfg p).map fun p' => (w, p', none)
  | .post =>
    match p with
    | .idle =>
      some ({ w with view := upd w.view t ((w.view t).tick t), posts := w.posts ++ [(w.view t).tick t] },
        .idle, none)
    | _ => none
  | .wait k =>
    match p, w.posts[k]? with
    | .idle, some v => some ({ w with view := upd w.view t (((w.view t).join v).tick t) }, .idle, none)
    | _, _ => none

/-- The machine. -/
def wmach (α : Type) (cfg : Cfg) (rel : Bool) :
    Mach (WSt α) (PC α) (WChoice α) (Op α × View Loc) (Ret α × View Loc) where
  step := wstep cfg rel
  idle := .idle
  ret := fun r => .ret r.1

/-- Global configuration. -/
abbrev WConf (α : Type) := MConf (WSt α) (PC α)

/-- A queue constructed for `n` elements, its construction happening before everything else. -/
def WConf.initial (cfg : Cfg) (n : Nat) : WConf α :=
  { s := { s := (Conf.initial cfg n).s
           msg := fun l _ => ⟨(Conf.initial (α := α) cfg n).s.word l, .bot⟩
           top := fun _ => 0
           view := fun _ => .bot
           dep := fun _ => .bot
           acc := fun _ => []
           posts := []
           pl := fun _ _ => false }
    pc := fun _ => .idle }

/-- No complete tag wrap of a compared word since the value it is compared with was written: at successful
compare-exchanges, and at the tests `tail == tail2` and `head == head2` (queue.hpp:351, 430). -/
def okWFresh (cfg : Cfg) (w : WSt α) (p : PC α) : WChoice α → Prop
  | .step _ => fresh cfg w.s p
  | .read _ _ => casOf p = none → fresh cfg w.s p
  | _ => True

/-- Executions. -/
abbrev WExec (cfg : Cfg) (rel : Bool) (n : Nat) (h : History (Op α × View Loc) (Ret α × View Loc)) (C : WConf α) : Prop :=
  MSteps (wmach α cfg rel) (fun _ _ _ => True) (WConf.initial cfg n) h C

/-- Executions without complete tag wrap. -/
abbrev WFreshExec (cfg : Cfg) (rel : Bool) (n : Nat) (h : History (Op α × View Loc) (Ret α × View Loc)) (C : WConf α) :
    Prop :=
  MSteps (wmach α cfg rel) (okWFresh cfg) (WConf.initial cfg n) h C

/-- The history without views. -/
def bare (h : History (Op α × View Loc) (Ret α × View Loc)) : History (Op α) (Ret α) :=
  h.map fun
    | .inv t o => .inv t o.1
    | .res t r => .res t r.1

/-- The view of the thread of an event. -/
def evView : Event (Op α × View Loc) (Ret α × View Loc) → View Loc
  | .inv _ o => o.2
  | .res _ r => r.2

/-- The event at position `j` happens before the event at position `i`: the thread of the latter knew, when it made that
step, the step of the former. -/
def HB (h : History (Op α × View Loc) (Ret α × View Loc)) (j i : Nat) : Prop :=
  j < i ∧ ∃ e f, h[j]? = some e ∧ h[i]? = some f ∧ (evView e).vc e.tid ≤ (evView f).vc e.tid

end Verif.Queue
