import Verif.WordMem
import Verif.Stack.Model

/-!
# Model of `include/boost/lockfree/stack.hpp` on stored words

The machine of `Stack/Model` once more, with `tos`, `pool_` and the links as the code stores them: words of type
`tagged_node_handle`, taken apart and put together with the operations of `tagged_ptr` / `tagged_index`. Compare-exchanges compare
words. Handles are turned into pointers by `get_pointer` (`Words.node`) and back by `get_handle` (`Words.hnd`).

The member `next` of a stack node is a plain handle (stack.hpp:92) at the place where the freelist has its tagged link; a
plain assignment is modelled as `set_ptr`, a plain read as `get_ptr` (`stack_link_plain` in `Stack/WordProps`: for compressed
pointers, where handle and tag share a word, the word of a link is always the plain pointer).
-/

namespace Verif.Stack
open Lin

variable {α : Type}

/-- Shared state: nodes and freelist, and `tos` (stack.hpp:822) with its ghost version. -/
structure SSt (K : Words) (α : Type) where
  mem : SMem K α
  tos : K.W
  tosVer : Nat

def SSt.tosSnap {K : Words} (s : SSt K α) : SSnap K := ⟨s.tos, s.tosVer⟩

/-- Where `destruct` / `deallocate` was called from, as `FreeK`. -/
inductive SFreeK (K : Words) (α : Type) where
  | pop (v : α)
  | cons (thr : Option Nat) (acc : List α) (nx : K.H)
  | rsv (k : Nat)
  | undo (nx : K.H)

/-- Program counters of a thread; the lines of the code are those of `PC`. Local variables of type `node*` are nodes, those of type
`tagged_node_handle` are words, `next` members that were read are handles. -/
inductive SPC (K : Words) (α : Type) where
  | idle
  | alloc (b : Bool) (k : PushK α) (a : SAPC K)
  | constr (b : Bool) (k : PushK α) (n : Nat)
  | rlink (b : Bool) (acc : List α) (te : Option (Nat × Nat)) (v : α) (rest : List α) (n : Nat)
  | lload (top e : Nat) (r : Ret α)
  | lset (top e : Nat) (o : SSnap K) (r : Ret α)
  | lcas (top e : Nat) (o : SSnap K) (r : Ret α)
  | pload (thr : Bool)
  | ptest (thr : Bool) (o : SSnap K)
  | pcas (thr : Bool) (o : SSnap K) (nx : K.H)
  | papply (thr : Bool) (n : Nat)
  | pdestroy (n : Nat) (v : α)
  | free (k : SFreeK K α) (n : Nat) (d : SDPC K)
  | cload (rev : Bool) (thr : Option Nat)
  | ctest (rev : Bool) (thr : Option Nat) (o : SSnap K)
  | ccas (rev : Bool) (thr : Option Nat) (o : SSnap K)
  | crev (thr : Option Nat) (n : Nat) (last : Option Nat)
  | crevSet (thr : Option Nat) (n : Nat) (last : Option Nat) (nx : K.H)
  | capply (thr : Option Nat) (n : Nat) (acc : List α)
  | cread (thr : Option Nat) (n : Nat) (acc : List α)
  | cdestroy (thr : Option Nat) (n : Nat) (acc : List α) (nx : K.H)
  | eload
  | rsv (k : Nat)
  | undo (n : Nat)
  | undoD (n : Nat) (nx : K.H)
  | ret (r : Ret α)
  | err

/-- Continuation after `allocate` returned null (stack.hpp:356-357; 289-292; 302-303). -/
def sonNull {K : Words} : PushK α → SPC K α
  | .one _ => .ret (.pushed false)
  | .range _ none _ _ => .ret (.count 0)
  | .range acc (some (top, e)) _ _ => .lload top e (.count acc.length)

/-- Continuation after `construct` threw (stack.hpp:288, 308-317). -/
def sonThrow {K : Words} : PushK α → SPC K α
  | .one _ => .ret .threw
  | .range _ none _ _ => .ret .threw
  | .range _ (some (top, _)) _ _ => .undo top

/-- Continuation after `deallocate`: the next node is `get_pointer` of the handle read before. -/
def sonFreed {K : Words} : SFreeK K α → SPC K α
  | .pop v => .ret (.popped (some v))
  | .cons thr acc nx =>
    match K.node nx with
    | none => .ret (.took acc)
    | some m => .capply thr m acc
  | .rsv k => .rsv k
  | .undo nx =>
    match K.node nx with
    | none => .ret .threw
    | some m => .undo m

/-- Next element of a range or link (stack.hpp:300, 320, 371-372). -/
def sonLinked {K : Words} (b : Bool) (acc : List α) (top e : Nat) : List α → SPC K α
  | [] => .lload top e (.count acc.length)
  | w :: rest => .alloc b (.range acc (some (top, e)) w rest) .load

/-- First PC of a call. -/
def sstart (R : Rep) : Op α → Option (SPC R.K α)
  | .push b v => some (.alloc b (.one v) .load)
  | .pushRange b vs =>
    if R.fixed then none
    else match vs with
      | [] => some .err
      | v :: rest => some (.alloc b (.range [] none v rest) .load)
  | .pop thr => some (.pload thr)
  | .consumeAll rev thr => some (.cload rev thr)
  | .empty => some .eload
  | .reserve k => if R.fixed then none else some (.rsv k)

/-- One step of thread `t` at the given PC; the lines of the code are those of `PC`. -/
def ststep (R : Rep) (t : Nat) (s : SSt R.K α) :
    SPC R.K α → SChoice R.K (Op α) α → Option (SSt R.K α × SPC R.K α × Option (Event (Op α) (Ret α)))
  | .idle, .call o => (sstart R o).map fun p => (s, p, some (.inv t o))
  | .alloc b k a, ch =>
    match saStep R b s.mem a ch with
    | none => none
    | some (h, .more a') => some ({ s with mem := h }, .alloc b k a', none)
    | some (h, .got n) => some ({ s with mem := h }, .constr b k n, none)
    | some (h, .null) => some ({ s with mem := h }, sonNull k, none)
    | some (h, .badAlloc) => some ({ s with mem := h }, sonThrow k, none)
  | .constr b k n, .go =>
    if (s.mem.data n).isSome then some (s, .err, none)
    else
      let s' := { s with mem := s.mem.setData n (some k.val) }
      match k with
      | .one _ => some (s', .lload n n (.pushed true), none)
      | .range acc te v rest => some (s', .rlink b acc te v rest n, none)
  | .constr _ k _, .throw => some (s, sonThrow k, none)
  | .rlink b acc te v rest n, .go =>
    match te with
    | none => some ({ s with mem := s.mem.setLink n (R.K.hnd none) }, sonLinked b (acc ++ [v]) n n rest, none)
    | some (top, e) =>
      some ({ s with mem := s.mem.setLink n (R.K.hnd (some top)) }, sonLinked b (acc ++ [v]) n e rest, none)
  | .lload top e r, .go => some (s, .lset top e s.tosSnap r, none)
  | .lset top e o r, .go =>
    some ({ s with mem := s.mem.setLink e (R.K.ptr o.v) }, .lcas top e o r, none)
  | .lcas top e o r, .go =>
    if s.tos = o.v then some ({ s with tos := R.K.pack (R.K.hnd (some top)) (R.K.tag o.v) }, .ret r, none)
    else some (s, .lset top e s.tosSnap r, none)
  | .lcas top e _ r, .spur => some (s, .lset top e s.tosSnap r, none)
  | .pload thr, .go => some (s, .ptest thr s.tosSnap, none)
  | .ptest thr o, ch =>
    match R.K.node (R.K.ptr o.v), ch with
    | none, .go => some (s, .ret (.popped none), none)
    | some n, .go => some (s, .pcas thr o (R.K.ptr (s.mem.next n)), none)
    | some _, .racy x => if s.tosVer = o.ver then none else some (s, .pcas thr o x, none)
    | _, _ => none
  | .pcas thr o nx, .go =>
    if s.tos = o.v then
      match R.K.node (R.K.ptr o.v) with
      | none => none
      | some n =>
        some ({ s with tos := R.K.pack nx (R.K.next (R.K.tag o.v)), tosVer := s.tosVer + 1 }, .papply thr n, none)
    else some (s, .ptest thr s.tosSnap, none)
  | .pcas thr _ _, .spur => some (s, .ptest thr s.tosSnap, none)
  | .papply thr n, .go =>
    match s.mem.data n with
    | none => some (s, .err, none)
    | some v => if thr then some (s, .ret (.popped (some v)), none) else some (s, .pdestroy n v, none)
  | .pdestroy n v, .go =>
    match s.mem.data n with
    | none => some (s, .err, none)
    | some _ => some ({ s with mem := s.mem.setData n none }, .free (.pop v) n .load, none)
  | .free k n d, ch =>
    match sdStep R s.mem n d ch with
    | none => none
    | some (h, some d') => some ({ s with mem := h }, .free k n d', none)
    | some (h, none) => some ({ s with mem := h }, sonFreed k, none)
  | .cload rev thr, .go => some (s, .ctest rev thr s.tosSnap, none)
  | .ctest rev thr o, .go =>
    match R.K.node (R.K.ptr o.v) with
    | none => some (s, .ret (.took []), none)
    | some _ => some (s, .ccas rev thr o, none)
  | .ccas rev thr o, .go =>
    if s.tos = o.v then
      match R.K.node (R.K.ptr o.v) with
      | none => none
      | some n =>
        some ({ s with tos := R.K.pack (R.K.hnd none) (R.K.next (R.K.tag o.v)), tosVer := s.tosVer + 1 },
          if rev then .crev thr n none else .capply thr n [], none)
    else some (s, .ctest rev thr s.tosSnap, none)
  | .ccas rev thr _, .spur => some (s, .ctest rev thr s.tosSnap, none)
  | .crev thr n last, .go => some (s, .crevSet thr n last (R.K.ptr (s.mem.next n)), none)
  | .crevSet thr n last nx, .go =>
    some ({ s with mem := s.mem.setLink n (R.K.hnd last) },
      match R.K.node nx with
      | none => .capply thr n []
      | some m => .crev thr m (some n), none)
  | .capply thr n acc, .go =>
    match s.mem.data n with
    | none => some (s, .err, none)
    | some v =>
      if thr = some acc.length then some (s, .ret (.took (acc ++ [v])), none)
      else some (s, .cread thr n (acc ++ [v]), none)
  | .cread thr n acc, .go => some (s, .cdestroy thr n acc (R.K.ptr (s.mem.next n)), none)
  | .cdestroy thr n acc nx, .go =>
    match s.mem.data n with
    | none => some (s, .err, none)
    | some _ => some ({ s with mem := s.mem.setData n none }, .free (.cons thr acc nx) n .load, none)
  | .eload, .go => some (s, .ret (.isEmpty (R.K.node (R.K.ptr s.tos)).isNone), none)
  | .rsv 0, .go => some (s, .ret .reserved, none)
  | .rsv (k + 1), .go =>
    if s.mem.nalloc < R.limit then some ({ s with mem := s.mem.malloc R }, .free (.rsv k) s.mem.nalloc .load, none) else none
  | .rsv (_ + 1), .throw => some (s, .ret .threw, none)
  | .undo n, .go => some (s, .undoD n (R.K.ptr (s.mem.next n)), none)
  | .undoD n nx, .go =>
    match s.mem.data n with
    | none => some (s, .err, none)
    | some _ => some ({ s with mem := s.mem.setData n none }, .free (.undo nx) n .load, none)
  | .ret r, .go => some (s, .idle, some (.res t r))
  | _, _ => none

/-- The tag of a compared word has not wrapped completely since the snapshot was taken. Needed only at the compare-exchanges that
remove nodes. -/
def sfresh (R : Rep) (s : SSt R.K α) : SPC R.K α → Prop
  | .alloc _ _ a => saFresh R s.mem a
  | .pcas _ o _ => s.tosVer < o.ver + R.M
  | .ccas _ _ o => s.tosVer < o.ver + R.M
  | _ => True

/-- Global configuration: shared state and the PC of every thread. -/
abbrev SConf (K : Words) (α : Type) := MConf (SSt K α) (SPC K α)

/-- A stack constructed with `n` preallocated nodes (stack.hpp:140-214, 257-260). -/
def SConf.initial (R : Rep) (n : Nat) : SConf R.K α :=
  { s := { mem := SMem.initial R n, tos := R.K.pack (R.K.hnd none) (R.encT 0), tosVer := 0 }, pc := fun _ => .idle }

/-- The machine of a stack on words. -/
def smach (α : Type) (R : Rep) : Mach (SSt R.K α) (SPC R.K α) (SChoice R.K (Op α) α) (Op α) (Ret α) where
  step := ststep R
  idle := .idle
  ret := .ret

/-- No complete tag wrap, no empty range. -/
def sokFresh (R : Rep) (s : SSt R.K α) (p : SPC R.K α) (ch : SChoice R.K (Op α) α) : Prop :=
  sfresh R s p ∧ ∀ b, ch ≠ .call (.pushRange b [])

/-- Executions on words of a stack constructed with `n` nodes, in which no tag wraps completely between a load and the corresponding
compare-exchange, and in which no empty range is pushed. -/
abbrev WordExec (R : Rep) (n : Nat) (h : History (Op α) (Ret α)) (C : SConf R.K α) : Prop :=
  MSteps (smach α R) (sokFresh R) (SConf.initial R n) h C

end Verif.Stack
