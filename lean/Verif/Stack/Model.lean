import Verif.Heap
import Verif.Mach
import Verif.Stack.Spec

/-!
# Model of `include/boost/lockfree/stack.hpp` (thread-safe interface)

One small step per access to shared memory. Interleaving (SC) semantics for the atomic words `tos` and
`pool_`; non-atomic reads that can race return arbitrary values; `compare_exchange_weak` may fail
spuriously; allocators, copy constructors and functors may throw. The PC `err` stands for undefined
behaviour: use of a payload outside its lifetime, or dereferencing the end iterator.
-/

namespace Verif.Stack
open Lin

variable {α : Type}

/-- Shared state: nodes and freelist, and `tos` (stack.hpp:822) with its ghost version. -/
structure St (α : Type) where
  heap : Heap α
  tos : Tagged
  tosVer : Nat

def St.tosSnap (s : St α) : Snap := ⟨s.tos, s.tosVer⟩

/-- What `construct` (freelist.hpp:77-102, 438-472) was called for: single-element push
(stack.hpp:355), or an element `v` of a range (stack.hpp:288, 301) with `rest` still to come, `acc` the
values prepared so far, and `te` = (`new_top_node`, `end_node`). -/
inductive PushK (α : Type) where
  | one (v : α)
  | range (acc : List α) (te : Option (Nat × Nat)) (v : α) (rest : List α)

/-- Where `destruct` / `deallocate` was called from: `consume_one` (stack.hpp:544), the loop of
`consume_all_atomic` (stack.hpp:635, 640), `reserve` (freelist.hpp:73), the catch block of
`prepare_node_list` (stack.hpp:312). -/
inductive FreeK (α : Type) where
  | pop (v : α)
  | cons (thr : Option Nat) (acc : List α) (nx : Option Nat)
  | rsv (k : Nat)
  | undo (nx : Option Nat)

/-- Program counters of a thread. -/
inductive PC (α : Type) where
  | idle
  /-- in `pool.allocate` called by `construct` (freelist.hpp:89, 453) -/
  | alloc (b : Bool) (k : PushK α) (a : APC)
  /-- about to run the node constructor, i.e. the copy constructor of `T` (freelist.hpp:91, 458, stack.hpp:87-89) -/
  | constr (b : Bool) (k : PushK α) (n : Nat)
  /-- stack.hpp:294-295 / 304-305: link a prepared node to the ones prepared before -/
  | rlink (b : Bool) (acc : List α) (te : Option (Nat × Nat)) (v : α) (rest : List α) (n : Nat)
  /-- `link_nodes_atomic`, stack.hpp:264 -/
  | lload (top e : Nat) (r : Ret α)
  /-- stack.hpp:267 -/
  | lset (top e : Nat) (o : Snap) (r : Ret α)
  /-- stack.hpp:269 -/
  | lcas (top e : Nat) (o : Snap) (r : Ret α)
  /-- `consume_one`, stack.hpp:533 -/
  | pload (thr : Bool)
  /-- stack.hpp:536-540: null test and read of `old_tos_pointer->next` -/
  | ptest (thr : Bool) (o : Snap)
  /-- stack.hpp:542 -/
  | pcas (thr : Bool) (o : Snap) (nx : Option Nat)
  /-- stack.hpp:543: apply the functor to the element -/
  | papply (thr : Bool) (n : Nat)
  /-- stack.hpp:544 with freelist.hpp:108/115/480/487: run the destructor of the payload -/
  | pdestroy (n : Nat) (v : α)
  /-- in `deallocate` called by `destruct` -/
  | free (k : FreeK α) (n : Nat) (d : DPC)
  /-- `consume_all_atomic(_reversed)`, stack.hpp:612 / 699 -/
  | cload (rev : Bool) (thr : Option Nat)
  /-- stack.hpp:615-617 / 702-704 -/
  | ctest (rev : Bool) (thr : Option Nat) (o : Snap)
  /-- stack.hpp:621 / 708 -/
  | ccas (rev : Bool) (thr : Option Nat) (o : Snap)
  /-- reversal loop, stack.hpp:717-718: read `node_pointer->next` -/
  | crev (thr : Option Nat) (n : Nat) (last : Option Nat)
  /-- stack.hpp:720-729: write `node_pointer->next` -/
  | crevSet (thr : Option Nat) (n : Nat) (last : Option Nat) (nx : Option Nat)
  /-- stack.hpp:628-630 / 733-735: apply the functor -/
  | capply (thr : Option Nat) (n : Nat) (acc : List α)
  /-- stack.hpp:632 / 737: read `next` -/
  | cread (thr : Option Nat) (n : Nat) (acc : List α)
  /-- stack.hpp:635, 640 / 740, 745: destroy the payload -/
  | cdestroy (thr : Option Nat) (n : Nat) (acc : List α) (nx : Option Nat)
  /-- `empty`, stack.hpp:817 -/
  | eload
  /-- `freelist_stack::reserve<true>`, freelist.hpp:67-75: `k` nodes to go -/
  | rsv (k : Nat)
  /-- catch block of `prepare_node_list`, stack.hpp:310-311 -/
  | undo (n : Nat)
  /-- stack.hpp:312: destroy the payload -/
  | undoD (n : Nat) (nx : Option Nat)
  /-- about to return -/
  | ret (r : Ret α)
  /-- undefined behaviour has happened -/
  | err

/-- Continuation after `allocate` returned null (stack.hpp:356-357; 289-292; 302-303). -/
def onNull : PushK α → PC α
  | .one _ => .ret (.pushed false)
  | .range _ none _ _ => .ret (.count 0)
  | .range acc (some (top, e)) _ _ => .lload top e (.count acc.length)

/-- Continuation after `construct` threw: propagate, or clean up the prepared nodes
(stack.hpp:308-317; the first `construct` is outside the try block, stack.hpp:288). -/
def onThrow : PushK α → PC α
  | .one _ => .ret .threw
  | .range _ none _ _ => .ret .threw
  | .range _ (some (top, _)) _ _ => .undo top

/-- Continuation after `deallocate`. -/
def onFreed : FreeK α → PC α
  | .pop v => .ret (.popped (some v))
  | .cons _ acc none => .ret (.took acc)
  | .cons thr acc (some m) => .capply thr m acc
  | .rsv k => .rsv k
  | .undo none => .ret .threw
  | .undo (some m) => .undo m

/-- Next element of a range or link (stack.hpp:300, 320, 371-372). -/
def onLinked (b : Bool) (acc : List α) (top e : Nat) : List α → PC α
  | [] => .lload top e (.count acc.length)
  | w :: rest => .alloc b (.range acc (some (top, e)) w rest) .load

/-- First PC of a call. `push(begin, end)` evaluates `*it++` before comparing with `end`
(stack.hpp:287-288), hence is undefined on an empty range. Range push and `reserve` exist (compile) only for
node-based stacks (stack.hpp:222-242, 295). -/
def start (cfg : Cfg) : Op α → Option (PC α)
  | .push b v => some (.alloc b (.one v) .load)
  | .pushRange b vs =>
    if cfg.fixed then none
    else match vs with
      | [] => some .err
      | v :: rest => some (.alloc b (.range [] none v rest) .load)
  | .pop thr => some (.pload thr)
  | .consumeAll rev thr => some (.cload rev thr)
  | .empty => some .eload
  | .reserve k => if cfg.fixed then none else some (.rsv k)

def PushK.val : PushK α → α
  | .one v => v
  | .range _ _ v _ => v

/-- One step of thread `t` at the given PC. -/
def tstep (cfg : Cfg) (t : Nat) (s : St α) :
    PC α → Choice (Op α) → Option (St α × PC α × Option (Event (Op α) (Ret α)))
  | .idle, .call o => (start cfg o).map fun p => (s, p, some (.inv t o))
  | .alloc b k a, ch =>
    match aStep cfg b s.heap a ch with
    | none => none
    | some (h, .more a') => some ({ s with heap := h }, .alloc b k a', none)
    | some (h, .got n) => some ({ s with heap := h }, .constr b k n, none)
    | some (h, .null) => some ({ s with heap := h }, onNull k, none)
    | some (h, .badAlloc) => some ({ s with heap := h }, onThrow k, none)
  | .constr b k n, .go =>
    if (s.heap.data n).isSome then some (s, .err, none)
    else
      let s' := { s with heap := s.heap.setData n (some k.val) }
      match k with
      | .one _ => some (s', .lload n n (.pushed true), none)
      | .range acc te v rest => some (s', .rlink b acc te v rest n, none)
  | .constr _ k _, .throw => some (s, onThrow k, none)
  | .rlink b acc te v rest n, .go =>
    match te with
    | none => some ({ s with heap := s.heap.setNextPtr n none }, onLinked b (acc ++ [v]) n n rest, none)
    | some (top, e) =>
      some ({ s with heap := s.heap.setNextPtr n (some top) }, onLinked b (acc ++ [v]) n e rest, none)
  | .lload top e r, .go => some (s, .lset top e s.tosSnap r, none)
  | .lset top e o r, .go =>
    some ({ s with heap := s.heap.setNextPtr e o.v.ptr }, .lcas top e o r, none)
  | .lcas top e o r, .go =>
    if s.tos = o.v then some ({ s with tos := ⟨some top, o.v.tag⟩ }, .ret r, none)
    else some (s, .lset top e s.tosSnap r, none)
  | .lcas top e _ r, .spur => some (s, .lset top e s.tosSnap r, none)
  | .pload thr, .go => some (s, .ptest thr s.tosSnap, none)
  | .ptest thr o, ch =>
    match o.v.ptr, ch with
    | none, .go => some (s, .ret (.popped none), none)
    | some n, .go => some (s, .pcas thr o (s.heap.next n).ptr, none)
    | some _, .racy x => if s.tosVer = o.ver then none else some (s, .pcas thr o x, none)
    | _, _ => none
  | .pcas thr o nx, .go =>
    if s.tos = o.v then
      match o.v.ptr with
      | none => none
      | some n =>
        some ({ s with tos := ⟨nx, cfg.nextTag o.v.tag⟩, tosVer := s.tosVer + 1 }, .papply thr n, none)
    else some (s, .ptest thr s.tosSnap, none)
  | .pcas thr _ _, .spur => some (s, .ptest thr s.tosSnap, none)
  | .papply thr n, .go =>
    match s.heap.data n with
    | none => some (s, .err, none)
    | some v => if thr then some (s, .ret (.popped (some v)), none) else some (s, .pdestroy n v, none)
  | .pdestroy n v, .go =>
    match s.heap.data n with
    | none => some (s, .err, none)
    | some _ => some ({ s with heap := s.heap.setData n none }, .free (.pop v) n .load, none)
  | .free k n d, ch =>
    match dStep s.heap n d ch with
    | none => none
    | some (h, some d') => some ({ s with heap := h }, .free k n d', none)
    | some (h, none) => some ({ s with heap := h }, onFreed k, none)
  | .cload rev thr, .go => some (s, .ctest rev thr s.tosSnap, none)
  | .ctest rev thr o, .go =>
    match o.v.ptr with
    | none => some (s, .ret (.took []), none)
    | some _ => some (s, .ccas rev thr o, none)
  | .ccas rev thr o, .go =>
    if s.tos = o.v then
      match o.v.ptr with
      | none => none
      | some n =>
        some ({ s with tos := ⟨none, cfg.nextTag o.v.tag⟩, tosVer := s.tosVer + 1 },
          if rev then .crev thr n none else .capply thr n [], none)
    else some (s, .ctest rev thr s.tosSnap, none)
  | .ccas rev thr _, .spur => some (s, .ctest rev thr s.tosSnap, none)
  | .crev thr n last, .go => some (s, .crevSet thr n last (s.heap.next n).ptr, none)
  | .crevSet thr n last nx, .go =>
    some ({ s with heap := s.heap.setNextPtr n last },
      match nx with
      | none => .capply thr n []
      | some m => .crev thr m (some n), none)
  | .capply thr n acc, .go =>
    match s.heap.data n with
    | none => some (s, .err, none)
    | some v =>
      if thr = some acc.length then some (s, .ret (.took (acc ++ [v])), none)
      else some (s, .cread thr n (acc ++ [v]), none)
  | .cread thr n acc, .go => some (s, .cdestroy thr n acc (s.heap.next n).ptr, none)
  | .cdestroy thr n acc nx, .go =>
    match s.heap.data n with
    | none => some (s, .err, none)
    | some _ => some ({ s with heap := s.heap.setData n none }, .free (.cons thr acc nx) n .load, none)
  | .eload, .go => some (s, .ret (.isEmpty s.tos.ptr.isNone), none)
  | .rsv 0, .go => some (s, .ret .reserved, none)
  | .rsv (k + 1), .go => some ({ s with heap := s.heap.malloc }, .free (.rsv k) s.heap.nalloc .load, none)
  | .rsv (_ + 1), .throw => some (s, .ret .threw, none)
  | .undo n, .go => some (s, .undoD n (s.heap.next n).ptr, none)
  | .undoD n nx, .go =>
    match s.heap.data n with
    | none => some (s, .err, none)
    | some _ => some ({ s with heap := s.heap.setData n none }, .free (.undo nx) n .load, none)
  | .ret r, .go => some (s, .idle, some (.res t r))
  | _, _ => none

/-- The tag of a compared word has not wrapped completely since the snapshot was taken. Needed only at the
compare-exchanges that remove nodes. -/
def fresh (cfg : Cfg) (s : St α) : PC α → Prop
  | .alloc _ _ a => aFresh cfg s.heap a
  | .pcas _ o _ => cfg.M = 0 ∨ s.tosVer < o.ver + cfg.M
  | .ccas _ _ o => cfg.M = 0 ∨ s.tosVer < o.ver + cfg.M
  | _ => True

/-- Steps in which user code throws such that the thread drops its nodes: the copy constructor
(freelist.hpp:91, 458 in a single or first push, or the node under construction), or the functor. -/
def leaky : PC α → Choice (Op α) → Bool
  | .constr _ _ _, .throw => true
  | .papply true _, _ => true
  | .capply thr _ acc, _ => thr == some acc.length
  | _, _ => false

/-- Global configuration: shared state and the PC of every thread. -/
abbrev Conf (α : Type) := MConf (St α) (PC α)

/-- A stack constructed with `n` preallocated nodes (stack.hpp:140-214, 257-260). -/
def Conf.initial (n : Nat) : Conf α :=
  { s := { heap := Heap.initial n, tos := ⟨none, 0⟩, tosVer := 0 }, pc := fun _ => .idle }

/-- The machine of a stack. -/
def mach (α : Type) (cfg : Cfg) : Mach (St α) (PC α) (Choice (Op α)) (Op α) (Ret α) where
  step := tstep cfg
  idle := .idle
  ret := .ret

/-- Executions of a stack constructed with `n` nodes: steps of arbitrary threads, with the history they
produce. -/
abbrev Exec (cfg : Cfg) (n : Nat) (h : History (Op α) (Ret α)) (C : Conf α) : Prop :=
  MSteps (mach α cfg) (fun _ _ _ => True) (Conf.initial n) h C

/-- No complete tag wrap, no empty range. -/
def okFresh (cfg : Cfg) (s : St α) (p : PC α) (ch : Choice (Op α)) : Prop :=
  fresh cfg s p ∧ ∀ b, ch ≠ .call (.pushRange b [])

/-- Executions in which no tag wraps completely between a load and the corresponding compare-exchange, and
in which no empty range is pushed. -/
abbrev FreshExec (cfg : Cfg) (n : Nat) (h : History (Op α) (Ret α)) (C : Conf α) : Prop :=
  MSteps (mach α cfg) (okFresh cfg) (Conf.initial n) h C

/-- Moreover no copy constructor and no functor throws. -/
def okClean (cfg : Cfg) (s : St α) (p : PC α) (ch : Choice (Op α)) : Prop :=
  okFresh cfg s p ch ∧ leaky p ch = false

end Verif.Stack
