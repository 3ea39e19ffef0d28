import Verif.Queue.Weak
import Verif.Queue.Text

/-!
# The program text of `include/boost/lockfree/queue.hpp` under the release/acquire memory model (C63)

The program is the text of `Queue/Text` (queue.hpp:116-543, freelist.hpp:68-255, 463-600), on stored words. The memory is that of `Queue/Weak`: `head_`,
`tail_` (queue.hpp:576, 579), `pool_` (freelist.hpp:257, 613) and the `next` words of the nodes (queue.hpp:132) are atomic objects with a list of messages, of
which a load may return an old one; payloads are not atomic. What every access is, and the memory order of a load, is stated with the access (`Access.kind`).

The freelist writes the `next` word of a node non-atomically (freelist.hpp:238, 595). As in `Queue/Weak`, an atomic load that is not ordered after such a
write may return anything (`torn`), and `rel` states what the readers of the written word are ordered after.
-/

namespace Verif.Queue.Code
open Lin Text

variable {α L : Type} {R : Rep}

/-- A word written to an atomic object, and the view released by the write. -/
structure SMsg (K : Words) where
  val : SSnap K
  view : View Queue.Loc

/-- Shared memory, as `WSt`. -/
structure RaSt (R : Rep) (α : Type) where
  s : SSt R.K α
  /-- message number `i` of an object -/
  msg : Queue.Loc → Nat → SMsg R.K
  /-- number of the newest message -/
  top : Queue.Loc → Nat
  /-- view of every thread -/
  view : Nat → View Queue.Loc
  /-- view of the message read by the last load, if it was not relaxed -/
  dep : Nat → View Queue.Loc
  /-- accesses to every node other than through its `next` word, except speculative reads: thread and number of its step -/
  acc : Nat → List (Nat × Nat)
  /-- views released by client threads -/
  posts : List (View Queue.Loc)
  /-- message `i` of `next n` was written non-atomically -/
  pl : Nat → Nat → Bool

/-- The atomic objects of a queue. -/
def locOf : Obj → Option Queue.Loc
  | .head => some .head
  | .tail => some .tail
  | .pool => some .pool
  | .next n => some (.next n)
  | _ => none

/-- The newest value of an atomic object. -/
def word (s : SSt R.K α) : Queue.Loc → SSnap R.K
  | .head => s.headSnap
  | .tail => s.tailSnap
  | .pool => s.mem.poolSnap
  | .next n => s.nextSnap n

/-- The state as it appears to a load that returns `x`. -/
def withWord (s : SSt R.K α) (x : SSnap R.K) : Queue.Loc → SSt R.K α
  | .head => { s with head := x.v, headVer := x.ver }
  | .tail => { s with tail := x.v, tailVer := x.ver }
  | .pool => { s with mem := { s.mem with pool := x.v, poolVer := x.ver } }
  | .next n => { s with mem := { s.mem with next := upd s.mem.next n x.v, nver := upd s.mem.nver n x.ver } }

/-- The view of `t` after reading message `i` of `l`. -/
def RaSt.readView (w : RaSt R α) (t : Nat) (l : Queue.Loc) (i : Nat) : Order → View Queue.Loc
  | .acquire => (((w.view t).join (w.msg l i).view).bump l i).tick t
  | _ => ((w.view t).bump l i).tick t

/-- Effect of reading message `i` of `l`. -/
def RaSt.recv (w : RaSt R α) (t : Nat) (l : Queue.Loc) (i : Nat) (ord : Order) : RaSt R α :=
  { w with
    view := upd w.view t (w.readView t l i ord)
    dep := upd w.dep t
      (match ord with
       | .relaxed => .bot
       | _ => (w.msg l i).view) }

/-- The view of `t` after a successful compare-exchange of `l`. -/
def RaSt.rmwView (w : RaSt R α) (t : Nat) (l : Queue.Loc) : View Queue.Loc :=
  (((w.view t).join (w.msg l (w.top l)).view).bump l (w.top l + 1)).tick t

/-- The accesses to the nodes after a step of `t` with accesses to the nodes `ns`. -/
def RaSt.touched (w : RaSt R α) (t : Nat) (ns : List Nat) (n : Nat) : List (Nat × Nat) :=
  if n ∈ ns then (t, (w.view t).vc t + 1) :: w.acc n else w.acc n

/-- Effect of a successful compare-exchange of `l` with new memory `s'`. -/
def RaSt.rmw (w : RaSt R α) (t : Nat) (l : Queue.Loc) (ns : List Nat) (s' : SSt R.K α) : RaSt R α :=
  { w with
    s := s'
    msg := upd w.msg l (upd (w.msg l) (w.top l + 1) ⟨word s' l, w.rmwView t l⟩)
    top := upd w.top l (w.top l + 1)
    view := upd w.view t (w.rmwView t l)
    acc := w.touched t ns }

/-- The view of `t` after a store to `l`. -/
def RaSt.storeView (w : RaSt R α) (t : Nat) (l : Queue.Loc) : View Queue.Loc := ((w.view t).bump l (w.top l + 1)).tick t

/-- Effect of a store to `next n`; `at'`: it is atomic; `rel`: readers are ordered after what precedes it. -/
def RaSt.store (w : RaSt R α) (t n : Nat) (at' rel : Bool) (ns : List Nat) (s' : SSt R.K α) : RaSt R α :=
  { w with
    s := s'
    msg := upd w.msg (.next n) (upd (w.msg (.next n)) (w.top (.next n) + 1)
      ⟨word s' (.next n), if rel then w.storeView t (.next n) else .bot⟩)
    top := upd w.top (.next n) (w.top (.next n) + 1)
    view := upd w.view t (w.storeView t (.next n))
    acc := w.touched t ns
    pl := upd w.pl n (upd (w.pl n) (w.top (.next n) + 1) (!at')) }

/-- The nodes obtained from the allocator between `s` and `s'`. -/
def newNode (s s' : SSt R.K α) (n : Nat) : Prop := s.mem.nalloc ≤ n ∧ n < s'.mem.nalloc

instance (s s' : SSt R.K α) (n : Nat) : Decidable (newNode s s' n) := by unfold newNode; infer_instance

/-- Effect of a step without access to an atomic object: accesses to the nodes `ns` and to newly allocated ones. The first message of the `next` word of a new
node is what the allocator wrote to it (`memset`, freelist.hpp:72, 182). -/
def RaSt.plain (w : RaSt R α) (t : Nat) (ns : List Nat) (s' : SSt R.K α) : RaSt R α :=
  { w with
    s := s'
    msg := fun
      | .next n => if newNode w.s s' n then fun i => ⟨word s' (.next n), (w.msg (.next n) i).view⟩ else w.msg (.next n)
      | l => w.msg l
    view := upd w.view t ((w.view t).tick t)
    acc := fun n => if n ∈ ns ∨ newNode w.s s' n then (t, (w.view t).vc t + 1) :: w.acc n else w.acc n }

/-- Resolution of nondeterminism. -/
inductive RaChoice (R : Rep) (Ch O : Type) where
  | call (o : O)
  /-- a step without access -/
  | tau
  /-- an access that reads no atomic object, or a successful compare-exchange -/
  | act (ch : Ch)
  /-- a load or a failing compare-exchange reads message `i`; `alt`: the other order of evaluation in `empty` -/
  | read (alt : Bool) (i : Nat)
  /-- a load of a `next` word reads message `i`, but returns `x`, since it is not ordered after the non-atomic write of message `k` -/
  | torn (k i : Nat) (x : R.K.W)
  /-- a racing speculative read -/
  | race (ch : Ch)
  /-- client code releases its view -/
  | post
  /-- client code acquires the `k`-th released view -/
  | wait (k : Nat)

/-- Where the thread is after an access. -/
def after (l : L) (k : Rest (SSt R.K α) L (SChoice R.K (Op α) α)) : Flow → TPC (SSt R.K α) L (SChoice R.K (Op α) α) (Ret α)
  | .next => .run l k
  | .throws => .run l (toHandler k)
  | .ub => .err

/-- A load of `x` by thread `t` that reads message `i`. -/
def raRead (t : Nat) (w : RaSt R α) (l : L) (a : Access (SSt R.K α) L (SChoice R.K (Op α) α)) (x : Obj) (ord : Order) (ch : SChoice R.K (Op α) α) (i : Nat) :
    Option (RaSt R α × L × Flow) :=
  match locOf x with
  | none => none
  | some lc =>
    if (w.view t).seen lc ≤ i ∧ i ≤ w.top lc then
      (a.run t (withWord w.s (w.msg lc i).val lc) l ch).map fun x => (w.recv t lc i ord, x.2)
    else none

/-- A compare-exchange of `x` by thread `t`, if it is successful. -/
def raCas (t : Nat) (w : RaSt R α) (l : L) (a : Access (SSt R.K α) L (SChoice R.K (Op α) α)) (x : Obj) (won : L → Bool) (ns : List Nat)
    (ch : SChoice R.K (Op α) α) : Option (RaSt R α × L × Flow) :=
  match locOf x, a.run t w.s l ch with
  | some lc, some (s', l', f) =>
    if won l' then
      if ns.all fun n => (w.view t).knows (w.acc n) then some (w.rmw t lc ns s', l', f)
      else some (w.plain t [] w.s, l, .ub)
    else none
  | _, _ => none

/-- An access without atomic read, and how it changes the memory. -/
def raPlain (t : Nat) (w : RaSt R α) (l : L) (a : Access (SSt R.K α) L (SChoice R.K (Op α) α)) (ns : List Nat) (ch : SChoice R.K (Op α) α)
    (effect : SSt R.K α → RaSt R α) : Option (RaSt R α × L × Flow) :=
  if ns.all fun n => (w.view t).knows (w.acc n) then (a.run t w.s l ch).map fun x => (effect x.1, x.2)
  else some (w.plain t [] w.s, l, .ub)

/-- One access of thread `t`, with the choices `act`, `read`, `torn` and `race`. -/
def raAccess (rel : Bool) (t : Nat) (w : RaSt R α) (l : L) (a : Access (SSt R.K α) L (SChoice R.K (Op α) α)) :
    RaChoice R (SChoice R.K (Op α) α) (Op α) → Option (RaSt R α × L × Flow)
  | .act ch =>
    match a.kind l with
    | .plain ns => raPlain t w l a ns ch (w.plain t ns)
    | .store n at' ns => raPlain t w l a ns ch (w.store t n at' (at' || rel) ns)
    | .spec _ _ => raPlain t w l a [] ch (w.plain t [])
    | .cas x won => raCas t w l a x won [] ch
    | .casStrong x won => raCas t w l a x won [] ch
    | .casTaking x won ns => raCas t w l a x won ns ch
    | .copy n _ =>
      match ch with
      | .go => if (w.view t).knows (w.acc n) then raPlain t w l a [] .go (w.plain t []) else none
      | .throw => raPlain t w l a [] .throw (w.plain t [])
      | _ => none
    | _ => none
  | .read alt i =>
    match a.kind l with
    | .load x ord => raRead t w l a x ord .go i
    | .first x y ord => if alt then raRead t w l a y ord .spur i else raRead t w l a x ord .go i
    | .cas x _ => raRead t w l a x .acquire .spur i
    | .casTaking x _ _ => raRead t w l a x .acquire .spur i
    | .casStrong x won => (raRead t w l a x .acquire .go i).bind fun y => if won y.2.1 then none else some y
    | _ => none
  | .torn k i x =>
    match a.kind l with
    | .load (.next n) ord =>
      if (w.view t).seen (.next n) ≤ k ∧ k ≤ i ∧ i ≤ w.top (.next n) ∧ w.pl n k = true ∧ (w.view t).knows (w.acc n) = false then
        (a.run t (withWord w.s ⟨x, (w.msg (.next n) i).val.ver⟩ (.next n)) l .go).map fun x => (w.recv t (.next n) i ord, x.2)
      else none
    | _ => none
  | .race ch =>
    match a.kind l with
    | .spec n race =>
      if ((w.view t).join (w.dep t)).knows (w.acc n) ∧ w.top (.next n) ≤ ((w.view t).join (w.dep t)).seen (.next n) then none
      else (race ch).map fun l' => (w.plain t [] w.s, l', .next)
    | .copy n race =>
      if (w.view t).knows (w.acc n) ∧ (w.s.mem.data n).isSome then none
      else (race ch).map fun l' => (w.plain t [] w.s, l', .next)
    | _ => none
  | _ => none

/-- The machine that executes a program under the release/acquire memory model. Every invocation and response carries the view of its thread. -/
def raMach (rel : Bool) (P : Program (SSt R.K α) L (SChoice R.K (Op α) α) (Op α) (Ret α)) :
    Mach (RaSt R α) (TPC (SSt R.K α) L (SChoice R.K (Op α) α) (Ret α)) (RaChoice R (SChoice R.K (Op α) α) (Op α))
      (Op α × View Queue.Loc) (Ret α × View Queue.Loc) where
  step t w
    | .idle, .call o =>
      (P.body t o).map fun x => (w.plain t [] w.s, .run x.1 [.stm x.2], some (.inv t (o, (w.view t).tick t)))
    | .idle, .post =>
      some ({ w with view := upd w.view t ((w.view t).tick t), posts := w.posts ++ [(w.view t).tick t] }, .idle, none)
    | .idle, .wait k =>
      (w.posts[k]?).map fun v => ({ w with view := upd w.view t (((w.view t).join v).tick t) }, .idle, none)
    | .run l [], .tau => some (w, .ret (P.result l), none)
    | .run l k, .tau => (ctl l k).map fun x => (w, .run x.1 x.2, none)
    | .run l (.stm (.acc a) :: k), ch => (raAccess rel t w l a ch).map fun x => (x.1, after x.2.1 k x.2.2, none)
    | .ret r, .tau => some (w.plain t [] w.s, .idle, some (.res t (r, (w.view t).tick t)))
    | _, _ => none
  idle := .idle
  ret r := .ret r.1

/-- No complete tag wrap of a compared word since the value it is compared with was written: at successful compare-exchanges, and at the loads before the tests
`tail == tail2` and `head == head2` (queue.hpp:351, 430). -/
def raOk (w : RaSt R α) : TPC (SSt R.K α) L (SChoice R.K (Op α) α) (Ret α) → RaChoice R (SChoice R.K (Op α) α) (Op α) → Prop
  | .run l (.stm (.acc a) :: _), .act ch => a.ok w.s l ch = true
  | .run l (.stm (.acc a) :: _), .read _ _ =>
    match a.kind l with
    | .load _ _ => a.ok w.s l .go = true
    | _ => True
  | _, _ => True

/-- Configurations. -/
abbrev RaConf (R : Rep) (α : Type) := MConf (RaSt R α) (TPC (SSt R.K α) (Loc R.K α) (SChoice R.K (Op α) α) (Ret α))

/-- A queue constructed for `n` elements, its construction happening before everything else. -/
def RaConf.initial (R : Rep) (α : Type) (n : Nat) : RaConf R α :=
  { s := { s := (SConf.initial R n).s
           msg := fun l _ => ⟨word (SConf.initial (α := α) R n).s l, .bot⟩
           top := fun _ => 0
           view := fun _ => .bot
           dep := fun _ => .bot
           acc := fun _ => []
           posts := []
           pl := fun _ _ => false }
    pc := fun _ => .idle }

/-- Executions of the program text under the release/acquire memory model, without complete tag wrap. -/
abbrev RaTextExec (R : Rep) (rel : Bool) (n : Nat) (h : History (Op α × View Queue.Loc) (Ret α × View Queue.Loc)) (C : RaConf R α) : Prop :=
  MSteps (raMach rel (program R α)) raOk (RaConf.initial R α n) h C

end Verif.Queue.Code
