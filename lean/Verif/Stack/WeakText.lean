import Verif.Stack.Weak
import Verif.Stack.Text

/-!
# The program text of `include/boost/lockfree/stack.hpp` under the release/acquire memory model (C62)

The program is the text of `Stack/Text` (stack.hpp:253-818, freelist.hpp:68-255, 463-600), on stored words. The memory is that of `Stack/Weak`: `tos`
(stack.hpp:822) and `pool_` (freelist.hpp:257, 613) are atomic objects with a list of messages, of which a load may return an old one; nodes are not atomic,
and an access to a node that is not ordered after all earlier ones is a data race. What every access is, and the memory order of a load, is stated with the
access (`Access.kind`).
-/

namespace Verif.Stack.Code
open Lin Text

variable {α L : Type} {R : Rep}

/-- A word written to an atomic object, and the view released by the write. -/
structure SMsg (K : Words) where
  val : SSnap K
  view : View Stack.Loc

/-- Shared memory, as `WSt`. -/
structure RaSt (R : Rep) (α : Type) where
  s : SSt R.K α
  /-- message number `i` of an object -/
  msg : Stack.Loc → Nat → SMsg R.K
  /-- number of the newest message -/
  top : Stack.Loc → Nat
  /-- view of every thread -/
  view : Nat → View Stack.Loc
  /-- view of the message read by the last load, if it was not relaxed -/
  dep : Nat → View Stack.Loc
  /-- accesses to every node so far, except speculative reads: thread and number of its step -/
  acc : Nat → List (Nat × Nat)
  /-- views released by client threads -/
  posts : List (View Stack.Loc)

/-- The atomic objects of a stack. -/
def locOf : Obj → Option Stack.Loc
  | .tos => some .tos
  | .pool => some .pool
  | _ => none

/-- The newest value of an atomic object. -/
def word (s : SSt R.K α) : Stack.Loc → SSnap R.K
  | .tos => s.tosSnap
  | .pool => s.mem.poolSnap

/-- The state as it appears to a load that returns `x`. -/
def withWord (s : SSt R.K α) (x : SSnap R.K) : Stack.Loc → SSt R.K α
  | .tos => { s with tos := x.v, tosVer := x.ver }
  | .pool => { s with mem := { s.mem with pool := x.v, poolVer := x.ver } }

/-- The view of `t` after reading message `i` of `l`. -/
def RaSt.readView (w : RaSt R α) (t : Nat) (l : Stack.Loc) (i : Nat) : Order → View Stack.Loc
  | .acquire => (((w.view t).join (w.msg l i).view).bump l i).tick t
  | _ => ((w.view t).bump l i).tick t

/-- Effect of reading message `i` of `l`. -/
def RaSt.recv (w : RaSt R α) (t : Nat) (l : Stack.Loc) (i : Nat) (ord : Order) : RaSt R α :=
  { w with
    view := upd w.view t (w.readView t l i ord)
    dep := upd w.dep t
      (match ord with
       | .relaxed => .bot
       | _ => (w.msg l i).view) }

/-- The view of `t` after a successful compare-exchange of `l`. -/
def RaSt.rmwView (w : RaSt R α) (t : Nat) (l : Stack.Loc) : View Stack.Loc :=
  (((w.view t).join (w.msg l (w.top l)).view).bump l (w.top l + 1)).tick t

/-- Effect of a successful compare-exchange of `l` with new memory `s'`. -/
def RaSt.rmw (w : RaSt R α) (t : Nat) (l : Stack.Loc) (s' : SSt R.K α) : RaSt R α :=
  { w with
    s := s'
    msg := upd w.msg l (upd (w.msg l) (w.top l + 1) ⟨word s' l, w.rmwView t l⟩)
    top := upd w.top l (w.top l + 1)
    view := upd w.view t (w.rmwView t l) }

/-- Effect of a step without atomic access: accesses to the nodes `ns` and to newly allocated ones. -/
def RaSt.plain (w : RaSt R α) (t : Nat) (ns : List Nat) (s' : SSt R.K α) : RaSt R α :=
  { w with
    s := s'
    view := upd w.view t ((w.view t).tick t)
    acc := fun n =>
      if n ∈ ns ∨ (w.s.mem.nalloc ≤ n ∧ n < s'.mem.nalloc) then (t, (w.view t).vc t + 1) :: w.acc n
      else w.acc n }

/-- Resolution of nondeterminism. -/
inductive RaChoice (Ch O : Type) where
  | call (o : O)
  /-- a step without access -/
  | tau
  /-- an access that reads no atomic object, or a successful compare-exchange -/
  | act (ch : Ch)
  /-- a load or a failing compare-exchange reads message `i` -/
  | read (i : Nat)
  /-- a racing speculative read -/
  | race (ch : Ch)
  /-- client code releases its view -/
  | post
  /-- client code acquires the `k`-th released view -/
  | wait (k : Nat)

/-- Where the thread is after an access. -/
def after (l : L) (k : Rest (SSt R.K α) L (SChoice R.K (Op α) α)) : Flow → TPC (SSt R.K α) L (SChoice R.K (Op α) α) (Ret α)
  | .next => .run l k
  | .throws => .run l (toHandler k)
  | .ub => .err

/-- One access of thread `t`, with the choices `act`, `read` and `race`. -/
def raAccess (t : Nat) (w : RaSt R α) (l : L) (a : Access (SSt R.K α) L (SChoice R.K (Op α) α)) :
    RaChoice (SChoice R.K (Op α) α) (Op α) → Option (RaSt R α × L × Flow)
  | .act ch =>
    match a.kind l with
    | .plain ns =>
      if ns.all fun n => (w.view t).knows (w.acc n) then (a.run t w.s l ch).map fun x => (w.plain t ns x.1, x.2)
      else some (w.plain t [] w.s, l, .ub)
    | .load _ _ => none
    | .cas x won =>
      match locOf x, a.run t w.s l ch with
      | some lc, some (s', l', f) => if won l' then some (w.rmw t lc s', l', f) else none
      | _, _ => none
    | .spec _ _ => (a.run t w.s l ch).map fun x => (w.plain t [] x.1, x.2)
    | _ => none
  | .read i =>
    let from_ (x : Obj) (ord : Order) (ch : SChoice R.K (Op α) α) :=
      match locOf x with
      | none => none
      | some lc =>
        if (w.view t).seen lc ≤ i ∧ i ≤ w.top lc then
          (a.run t (withWord w.s (w.msg lc i).val lc) l ch).map fun x => (w.recv t lc i ord, x.2)
        else none
    match a.kind l with
    | .load x ord => from_ x ord .go
    | .cas x _ => from_ x .acquire .spur
    | _ => none
  | .race ch =>
    match a.kind l with
    | .spec n race =>
      if ((w.view t).join (w.dep t)).knows (w.acc n) then none
      else (race ch).map fun l' => (w.plain t [] w.s, l', .next)
    | _ => none
  | _ => none

/-- The machine that executes a program under the release/acquire memory model. Every invocation and response carries the view of its thread. -/
def raMach (P : Program (SSt R.K α) L (SChoice R.K (Op α) α) (Op α) (Ret α)) :
    Mach (RaSt R α) (TPC (SSt R.K α) L (SChoice R.K (Op α) α) (Ret α)) (RaChoice (SChoice R.K (Op α) α) (Op α))
      (Op α × View Stack.Loc) (Ret α × View Stack.Loc) where
  step t w
    | .idle, .call o =>
      (P.body t o).map fun x => (w.plain t [] w.s, .run x.1 [.stm x.2], some (.inv t (o, (w.view t).tick t)))
    | .idle, .post =>
      some ({ w with view := upd w.view t ((w.view t).tick t), posts := w.posts ++ [(w.view t).tick t] }, .idle, none)
    | .idle, .wait k =>
      (w.posts[k]?).map fun v => ({ w with view := upd w.view t (((w.view t).join v).tick t) }, .idle, none)
    | .run l [], .tau => some (w, .ret (P.result l), none)
    | .run l k, .tau => (ctl l k).map fun x => (w, .run x.1 x.2, none)
    | .run l (.stm (.acc a) :: k), ch => (raAccess t w l a ch).map fun x => (x.1, after x.2.1 k x.2.2, none)
    | .ret r, .tau => some (w.plain t [] w.s, .idle, some (.res t (r, (w.view t).tick t)))
    | _, _ => none
  idle := .idle
  ret r := .ret r.1

/-- No complete tag wrap at a successful compare-exchange since the value it expects was written, no empty range. -/
def raOk (w : RaSt R α) : TPC (SSt R.K α) L (SChoice R.K (Op α) α) (Ret α) → RaChoice (SChoice R.K (Op α) α) (Op α) → Prop
  | .idle, .call o => ∀ b, o ≠ .pushRange b []
  | .run l (.stm (.acc a) :: _), .act ch => a.ok w.s l ch = true
  | _, _ => True

/-- Configurations. -/
abbrev RaConf (R : Rep) (α : Type) := MConf (RaSt R α) (TPC (SSt R.K α) (Loc R.K α) (SChoice R.K (Op α) α) (Ret α))

/-- A stack constructed with `n` preallocated nodes, its construction happening before everything else. -/
def RaConf.initial (R : Rep) (α : Type) (n : Nat) : RaConf R α :=
  { s := { s := (SConf.initial R n).s
           msg := fun l _ => ⟨word (SConf.initial (α := α) R n).s l, .bot⟩
           top := fun _ => 0
           view := fun _ => .bot
           dep := fun _ => .bot
           acc := fun _ => []
           posts := [] }
    pc := fun _ => .idle }

/-- Executions of the program text under the release/acquire memory model, without complete tag wrap and without push of an empty range. -/
abbrev RaTextExec (R : Rep) (n : Nat) (h : History (Op α × View Stack.Loc) (Ret α × View Stack.Loc)) (C : RaConf R α) : Prop :=
  MSteps (raMach (program R α)) raOk (RaConf.initial R α n) h C

end Verif.Stack.Code
