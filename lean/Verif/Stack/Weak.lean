import Verif.Weak
import Verif.WeakLin
import Verif.Stack.Model

/-!
# Model of `include/boost/lockfree/stack.hpp` under the release/acquire memory model

The program is the one of `Verif.Stack.Model`: the same program counters and the same steps `tstep`. What
changes is the memory. `tos` (stack.hpp:822) and `pool_` (freelist.hpp:257, 613) are atomic objects with a
list of messages; a load may return an old message, and only a successful compare-exchange acts on the newest
one. Nodes are not atomic: every access to a node that the program is entitled to make (all but the
speculative reads of `next` in `consume_one` and in `allocate`) must happen after all earlier such accesses
to the node; otherwise there is a data race and the behaviour is undefined (PC `err`). The speculative reads
do race with the next owner of the node; if the read is not ordered after all accesses to the node, it
returns an arbitrary value.

Between its calls, a client thread may release its view to, and acquire views from, other client threads
(`post`, `wait`); this stands for any synchronisation between the client threads.
-/

namespace Verif.Stack
open Lin

variable {α : Type}

/-- The two atomic objects. -/
inductive Loc where
  | tos
  | pool
deriving DecidableEq

/-- Shared memory. `s` holds the nodes and the newest values of the atomic objects. -/
structure WSt (α : Type) where
  s : St α
  /-- message number `i` of an object -/
  msg : Loc → Nat → Msg Loc
  /-- number of the newest message -/
  top : Loc → Nat
  /-- view of every thread -/
  view : Nat → View Loc
  /-- view of the message read by the last load: what a `memory_order_consume` load orders before the reads
  through the loaded pointer -/
  dep : Nat → View Loc
  /-- accesses to every node so far, except speculative reads: thread and number of its step -/
  acc : Nat → List (Nat × Nat)
  /-- views released by client threads -/
  posts : List (View Loc)

/-- Value of an atomic object in a state. -/
def St.word (s : St α) : Loc → Snap
  | .tos => s.tosSnap
  | .pool => s.heap.poolSnap

/-- The state as it appears to a load that returns `x`. -/
def St.withWord (s : St α) (x : Snap) : Loc → St α
  | .tos => { s with tos := x.v, tosVer := x.ver }
  | .pool => { s with heap := { s.heap with pool := x.v, poolVer := x.ver } }

/-- Resolution of nondeterminism. -/
inductive WChoice (α : Type) where
  /-- a step that reads no atomic object, or a successful compare-exchange -/
  | step (ch : Choice (Op α))
  /-- a load or a failing compare-exchange reads message `i` -/
  | read (i : Nat)
  /-- a racing speculative read returns `x` -/
  | race (x : Option Nat)
  /-- a step that only tests local variables, without being counted as a step of the thread -/
  | skip
  /-- client code releases its view -/
  | post
  /-- client code acquires the `k`-th released view -/
  | wait (k : Nat)

/-- Compare-exchanges of the program and the expected value (stack.hpp:269, 542, 621, 708;
freelist.hpp:190, 240, 557, 597): all are `compare_exchange_weak` with the default order `seq_cst`. -/
def casOf : PC α → Option (Loc × Snap)
  | .alloc _ _ (.cas o _) => some (.pool, o)
  | .free _ _ (.cas o) => some (.pool, o)
  | .lcas _ _ o _ => some (.tos, o)
  | .pcas _ o _ => some (.tos, o)
  | .ccas _ _ o => some (.tos, o)
  | _ => none

/-- Loads of the program with their memory orders: relaxed in `link_nodes_atomic` (stack.hpp:264), consume in
`consume_one` and `consume_all_atomic(_reversed)` (stack.hpp:533, 612, 699) and in the freelist
(freelist.hpp:175, 233, 545, 591), seq_cst in `empty` (stack.hpp:817). -/
def loadOf : PC α → Option (Loc × Order)
  | .alloc _ _ .load => some (.pool, .consume)
  | .free _ _ .load => some (.pool, .consume)
  | .lload _ _ _ => some (.tos, .relaxed)
  | .pload _ => some (.tos, .consume)
  | .cload _ _ => some (.tos, .consume)
  | .eload => some (.tos, .acquire)
  | _ => none

/-- The object read by the next step if it does not write: by a load, or by a compare-exchange that fails
(`seq_cst`, hence acquire), and the corresponding choice of the sequentially consistent step. -/
def readOf (p : PC α) : Option (Loc × Order × Choice (Op α)) :=
  match loadOf p, casOf p with
  | some (l, ord), _ => some (l, ord, .go)
  | none, some (l, _) => some (l, .acquire, .spur)
  | none, none => none

/-- Nodes accessed by the next step, other than by speculative reads. -/
def touch : PC α → List Nat
  | .constr _ _ n | .rlink _ _ _ _ _ n => [n]
  | .lset _ e _ _ => [e]
  | .papply _ n | .pdestroy n _ => [n]
  | .free _ n (.set _) => [n]
  | .crev _ n _ | .crevSet _ n _ _ | .capply _ n _ | .cread _ n _ | .cdestroy _ n _ _ => [n]
  | .undo n | .undoD n _ => [n]
  | _ => []

/-- The speculative reads of a `next` word: in `consume_one` (stack.hpp:540), and in `allocate`
(freelist.hpp:187, 553-555); the node and the continuation with the value read. -/
def specOf : PC α → Option (Nat × (Option Nat → PC α))
  | .ptest thr o => o.v.ptr.map fun n => (n, fun x => .pcas thr o x)
  | .alloc b k (.test o) => o.v.ptr.map fun n => (n, fun x => .alloc b k (.cas o x))
  | _ => none

/-- Steps that only test local variables: of the handle in `consume_one` (stack.hpp:536-538) and `consume_all_atomic(_reversed)` (stack.hpp:615-617,
702-704) if it is null, or of the handle in `allocate` (freelist.hpp:178-185, 549-550) if it is null and no node is requested from the allocator, and the end
of the loop of `reserve` (freelist.hpp:70). -/
def quiet (cfg : Cfg) : PC α → Option (PC α)
  | .ptest _ o => if o.v.ptr.isNone then some (.ret (.popped none)) else none
  | .ctest rev thr o => if o.v.ptr.isNone then some (.ret (.took [])) else some (.ccas rev thr o)
  | .alloc b k (.test o) => if o.v.ptr.isNone && (cfg.fixed || b) then some (onNull k) else none
  | .rsv 0 => some (.ret .reserved)
  | _ => none

/-- The view of `t` after reading message `i` of `l`. -/
def WSt.readView (w : WSt α) (t : Nat) (l : Loc) (i : Nat) : Order → View Loc
  | .acquire => (((w.view t).join (w.msg l i).view).bump l i).tick t
  | _ => ((w.view t).bump l i).tick t

/-- Effect of reading message `i` of `l`. -/
def WSt.recv (w : WSt α) (t : Nat) (l : Loc) (i : Nat) (ord : Order) : WSt α :=
  { w with
    view := upd w.view t (w.readView t l i ord)
    dep := upd w.dep t
      (match ord with
       | .relaxed => .bot
       | _ => (w.msg l i).view) }

/-- The view of `t` after a successful compare-exchange of `l`. -/
def WSt.rmwView (w : WSt α) (t : Nat) (l : Loc) : View Loc :=
  (((w.view t).join (w.msg l (w.top l)).view).bump l (w.top l + 1)).tick t

/-- Effect of a successful compare-exchange of `l` with new memory `s'`: acquires the view of the newest message
and releases the view of the thread with the new one. -/
def WSt.rmw (w : WSt α) (t : Nat) (l : Loc) (s' : St α) : WSt α :=
  { w with
    s := s'
    msg := upd w.msg l (upd (w.msg l) (w.top l + 1) ⟨s'.word l, w.rmwView t l⟩)
    top := upd w.top l (w.top l + 1)
    view := upd w.view t (w.rmwView t l) }

/-- Effect of a step without atomic access: accesses to the nodes `ns` and to newly allocated ones. -/
def WSt.plain (w : WSt α) (t : Nat) (ns : List Nat) (s' : St α) : WSt α :=
  { w with
    s := s'
    view := upd w.view t ((w.view t).tick t)
    acc := fun n =>
      if n ∈ ns ∨ (w.s.heap.nalloc ≤ n ∧ n < s'.heap.nalloc) then (t, (w.view t).vc t + 1) :: w.acc n
      else w.acc n }

/-- An event together with the view of its thread. -/
def stamp (v : View Loc) : Event (Op α) (Ret α) → Event (Op α × View Loc) (Ret α × View Loc)
  | .inv t o => .inv t (o, v)
  | .res t r => .res t (r, v)

/-- One step of thread `t`. -/
def wstep (cfg : Cfg) (t : Nat) (w : WSt α) (p : PC α) :
    WChoice α → Option (WSt α × PC α × Option (Event (Op α × View Loc) (Ret α × View Loc)))
  | .step ch =>
    match casOf p with
    | some (l, o) =>
      match ch with
      | .go =>
        if (w.s.word l).v = o.v then
          (tstep cfg t w.s p .go).map fun r => (w.rmw t l r.1, r.2.1, none)
        else none
      | _ => none
    | none =>
      match loadOf p with
      | some _ => none
      | none =>
        if (touch p).all fun n => (w.view t).knows (w.acc n) then
          (tstep cfg t w.s p ch).map fun r =>
            (w.plain t (touch p) r.1, r.2.1, r.2.2.map (stamp ((w.view t).tick t)))
        else some (w.plain t [] w.s, .err, none)
  | .read i =>
    match readOf p with
    | none => none
    | some (l, ord, ch) =>
      if (w.view t).seen l ≤ i ∧ i ≤ w.top l then
        (tstep cfg t (w.s.withWord (w.msg l i).val l) p ch).map fun r => (w.recv t l i ord, r.2.1, none)
      else none
  | .race x =>
    match specOf p with
    | none => none
    | some (n, k) =>
      if ((w.view t).join (w.dep t)).knows (w.acc n) then none
      else some (w.plain t [] w.s, k x, none)
  | .skip => (quiet cfg p).map fun p' => (w, p', none)
  | .post =>
    match p with
    | .idle =>
      some ({ w with view := upd w.view t ((w.view t).tick t), posts := w.posts ++ [(w.view t).tick t] },
        .idle, none)
    | _ => none
  | .wait k =>
    match p, w.posts[k]? with
    | .idle, some v => some ({ w with view := upd w.view t (((w.view t).join v).tick t) }, .idle, none)
    | _, _ => none

/-- The machine. -/
def wmach (α : Type) (cfg : Cfg) :
    Mach (WSt α) (PC α) (WChoice α) (Op α × View Loc) (Ret α × View Loc) where
  step := wstep cfg
  idle := .idle
  ret := fun r => .ret r.1

/-- Global configuration. -/
abbrev WConf (α : Type) := MConf (WSt α) (PC α)

/-- A stack constructed with `n` preallocated nodes, its construction happening before everything else. -/
def WConf.initial (n : Nat) : WConf α :=
  { s := { s := (Conf.initial n).s
           msg := fun l _ => ⟨(Conf.initial (α := α) n).s.word l, .bot⟩
           top := fun _ => 0
           view := fun _ => .bot
           dep := fun _ => .bot
           acc := fun _ => []
           posts := [] }
    pc := fun _ => .idle }

/-- No complete tag wrap at a successful compare-exchange since the value it expects was written, no empty
range. -/
def okWFresh (cfg : Cfg) (w : WSt α) (p : PC α) : WChoice α → Prop
  | .step ch => okFresh cfg w.s p ch
  | _ => True

/-- Executions. -/
abbrev WExec (cfg : Cfg) (n : Nat) (h : History (Op α × View Loc) (Ret α × View Loc)) (C : WConf α) : Prop :=
  MSteps (wmach α cfg) (fun _ _ _ => True) (WConf.initial n) h C

/-- Executions without complete tag wrap. -/
abbrev WFreshExec (cfg : Cfg) (n : Nat) (h : History (Op α × View Loc) (Ret α × View Loc)) (C : WConf α) : Prop :=
  MSteps (wmach α cfg) (okWFresh cfg) (WConf.initial n) h C

/-- The history without views. -/
def bare (h : History (Op α × View Loc) (Ret α × View Loc)) : History (Op α) (Ret α) :=
  h.map fun
    | .inv t o => .inv t o.1
    | .res t r => .res t r.1

/-- The view of the thread of an event. -/
def evView : Event (Op α × View Loc) (Ret α × View Loc) → View Loc
  | .inv _ o => o.2
  | .res _ r => r.2

/-- The event at position `j` happens before the event at position `i`: the thread of the latter knew, when it made that
step, the step of the former. -/
def HB (h : History (Op α × View Loc) (Ret α × View Loc)) (j i : Nat) : Prop :=
  j < i ∧ ∃ e f, h[j]? = some e ∧ h[i]? = some f ∧ (evView e).vc e.tid ≤ (evView f).vc e.tid

end Verif.Stack
