import Verif.Mach
import Verif.Spsc.Index
import Verif.Spsc.Spec

/-!
# Model of `boost::lockfree::spsc_queue` (spsc_queue.hpp)

A two-thread machine (thread 0: producer, thread 1: consumer) with release/acquire memory:

* Each index (`write_index_`, `read_index_`, spsc_queue.hpp:52-54) is an atomic object with its modification order,
  the sequence of all stores to it. A load may return any store not older than what the thread knows (coherence),
  so stale values are possible. An acquire load joins the view that the store released.
* A *view* says what happens-before the present moment of a thread: which stores of each index, and how many of the
  slot accesses of each thread.
* Slot accesses are not atomic. If a thread touches a slot last touched by the other thread by an access outside its
  view, that is a data race and the machine goes to the absorbing `err`. So do accesses outside the buffer, reading
  or destroying a slot without live object, and constructing over a live object (of a type with non-trivial
  destructor).
* A thread may at any time synchronise with the other one by means outside the queue (`Choice.sync`).

Simplifications: every slot access of the other role conflicts (true: the producer only writes); relaxed loads do
not see stores from the future; the values' own copy operations are atomic with respect to the machine. The order of the
two loads in `empty()` is unspecified: each call may use either.
-/

namespace Verif.Spsc
open Lin

/-- `size` is `max_size` / `max_elements_` (spsc_queue.hpp:424, 544), `trivial` is
`boost::has_trivial_destructor< T >::value` (spsc_queue.hpp:390). -/
structure Cfg where
  size : SizeT
  trivial : Bool

/-- What happens-before a point of a thread: `p`, `c` slot accesses of producer and consumer, `w`, `r` positions in
the modification orders of the two indices. -/
structure View where
  p : Nat
  c : Nat
  w : Nat
  r : Nat

def View.join (a b : View) : View := ⟨max a.p b.p, max a.c b.c, max a.w b.w, max a.r b.r⟩

/-- A store to an index: value and released view. `cnt` is a ghost (no program step reads it): total number of
elements pushed / popped up to this store. -/
structure Msg where
  val : SizeT
  view : View
  cnt : Nat

/-- Shared state. `W k` for `k ≤ wlast` is the modification order of `write_index_`, similarly `R`, `rlast`.
`cell i` is the object alive in slot `i`, if any. `lastP i`, `lastC i`: when producer and consumer last touched
slot `i`. Ghosts: `acc`, the values whose publication by a store of `write_index_` was executed; `out`, the
values handed to the consumer's functor or output; `ctor`, `dtor`, the number of constructor and destructor
calls on slots. -/
structure St (α : Type) where
  cell : Nat → Option α
  W : Nat → Msg
  wlast : Nat
  R : Nat → Msg
  rlast : Nat
  vp : View
  vc : View
  lastP : Nat → Nat
  lastC : Nat → Nat
  acc : List α
  out : List α
  ctor : Nat
  dtor : Nat

/-- Program counters; line numbers of spsc_queue.hpp. -/
inductive PC (α : Type) where
  | idle
  /-- 106-107 load `write_index_`, `next_index` -/
  | push1 (v : α)
  /-- 109 load `read_index_`, compare -/
  | push2 (v : α) (w next : SizeT)
  /-- 112 copy-construct -/
  | push3 (v : α) (w next : SizeT)
  /-- 114 store `write_index_` -/
  | push4 (v : α) (next : SizeT)
  /-- 129 -/
  | rng1 (vs : List α)
  /-- 130-144 -/
  | rng2 (vs : List α) (w : SizeT)
  /-- 148, 149, 152: next iteration of `std::uninitialized_copy`, writing `xs` from slot `dst` on; `start` is where
  this section began, `second` whether it is the one of line 149, `rest` what remains for line 149 -/
  | rngCopy (start dst : Nat) (xs rest : List α) (second : Bool) (total : List α) (newW : SizeT)
  /-- an exception left `std::uninitialized_copy`, which destroys slots `i` to `stop` -/
  | rngUnwind (i stop : Nat)
  /-- 158 -/
  | rngStore (total : List α) (newW : SizeT)
  /-- 99 -/
  | wav1
  /-- 100-101 -/
  | wav2 (w : SizeT)
  /-- 369 load `write_index_` or `read_index_` -/
  | emp1
  /-- 369 `write_index_` is loaded: load `read_index_`, compare -/
  | emp2 (w : SizeT)
  /-- 369 `read_index_` is loaded: load `write_index_`, compare -/
  | emp3 (r : SizeT)
  /-- 165, 182 -/
  | one1
  /-- 166-168, 183-185 -/
  | one2 (w : SizeT)
  /-- 170-171, 187-188: call the functor -/
  | one3 (r : SizeT)
  /-- 172, 189: destroy -/
  | one4 (v : α) (r : SizeT)
  /-- 174-175, 191-192: `next_index`, store `read_index_` -/
  | one5 (v : α) (r : SizeT)
  /-- 199, 234, 268, 302 -/
  | bulk1 (copy : Bool) (lim : Option Nat)
  /-- 200-221, 235-256, 269-289, 303-320 -/
  | bulk2 (copy : Bool) (lim : Option Nat) (w : SizeT)
  /-- 391 / 394 (`copy`) or 405, 414: next element, slot `i`; `rem` remain in this section, `rest` in the second -/
  | bulkRead (copy : Bool) (i rem rest : Nat) (outs : List α) (newR : SizeT)
  /-- 395, 406, 415: destroy slot `i` -/
  | bulkDestroy (copy : Bool) (i rem rest : Nat) (outs : List α) (newR : SizeT)
  /-- 227, 262, 295, 326 -/
  | bulkStore (outs : List α) (newR : SizeT)
  /-- 92 -/
  | rav1
  /-- 93-94 -/
  | rav2 (w : SizeT)
  /-- 1014, 1021: `BOOST_ASSERT( read_available() > 0 )`, 92 -/
  | frt1
  /-- 1014, 1021: 93-94 -/
  | frt2 (w : SizeT)
  /-- 332, 338 -/
  | frt3
  /-- the caller reads through the reference returned by 333, 339 -/
  | frt4 (r : SizeT)
  | ret (r : Ret α)
  /-- undefined behaviour happened -/
  | err
  /-- the loop of `next_index` never ends -/
  | spin

/-- How nondeterminism is resolved: a call by the client, a normal step (loads return store `j`), a step that evaluates the
second of two arguments first (369), an exception from user code, synchronisation by means outside the queue. -/
inductive Choice (α : Type) where
  | call (o : Op α)
  | go (j : Nat)
  | swap (j : Nat)
  | throw
  | sync

variable {α : Type}

def View.zero : View := ⟨0, 0, 0, 0⟩

/-- spsc_queue.hpp:60-63: both indices are 0; no slot holds an object. -/
def St.initial : St α where
  cell _ := none
  W _ := ⟨0, .zero, 0⟩
  wlast := 0
  R _ := ⟨0, .zero, 0⟩
  rlast := 0
  vp := .zero
  vc := .zero
  lastP _ := 0
  lastC _ := 0
  acc := []
  out := []
  ctor := 0
  dtor := 0

/-! ### Memory accesses -/

/-- The producer touches slot `i`; `none`: undefined behaviour (outside the buffer, or data race). -/
def St.touchP (cfg : Cfg) (s : St α) (i : Nat) : Option (St α) :=
  if i < cfg.size.toNat ∧ s.lastC i ≤ s.vp.c then
    some { s with vp := { s.vp with p := s.vp.p + 1 }, lastP := upd s.lastP i (s.vp.p + 1) }
  else none

/-- The consumer touches slot `i`. -/
def St.touchC (cfg : Cfg) (s : St α) (i : Nat) : Option (St α) :=
  if i < cfg.size.toNat ∧ s.lastP i ≤ s.vc.p then
    some { s with vc := { s.vc with c := s.vc.c + 1 }, lastC := upd s.lastC i (s.vc.c + 1) }
  else none

/-- `new ( buffer + i ) T( v )` by the producer; `none`: undefined behaviour or a live object is overwritten. -/
def St.construct (cfg : Cfg) (s : St α) (i : Nat) (v : α) : Option (St α) :=
  if (s.cell i).isSome && !cfg.trivial then none
  else (s.touchP cfg i).map fun s => { s with cell := upd s.cell i (some v), ctor := s.ctor + 1 }

/-- Destructor call by the producer (unwinding). -/
def St.destroyP (cfg : Cfg) (s : St α) (i : Nat) : Option (St α) :=
  if (s.cell i).isSome then
    (s.touchP cfg i).map fun s => { s with cell := upd s.cell i none, dtor := s.dtor + 1 }
  else none

/-- Read by the consumer of the object in slot `i`. -/
def St.readC (cfg : Cfg) (s : St α) (i : Nat) : Option (St α × α) :=
  match s.cell i with
  | none => none
  | some v => (s.touchC cfg i).map fun s => (s, v)

/-- Destructor call by the consumer. -/
def St.destroyC (cfg : Cfg) (s : St α) (i : Nat) : Option (St α) :=
  if (s.cell i).isSome then
    (s.touchC cfg i).map fun s => { s with cell := upd s.cell i none, dtor := s.dtor + 1 }
  else none

/-- Load of `write_index_` by the producer, returning store `j`. Nothing is acquired (all stores are its own). -/
def St.loadWP (s : St α) (j : Nat) : Option (St α × SizeT) :=
  if s.vp.w ≤ j ∧ j ≤ s.wlast then some ({ s with vp := { s.vp with w := j } }, (s.W j).val) else none

/-- Load of `read_index_` by the producer: acquire or relaxed. -/
def St.loadRP (s : St α) (acquire : Bool) (j : Nat) : Option (St α × SizeT) :=
  if s.vp.r ≤ j ∧ j ≤ s.rlast then
    let v := { s.vp with r := j }
    some ({ s with vp := if acquire then v.join (s.R j).view else v }, (s.R j).val)
  else none

/-- Load of `write_index_` by the consumer: acquire or relaxed. -/
def St.loadWC (s : St α) (acquire : Bool) (j : Nat) : Option (St α × SizeT) :=
  if s.vc.w ≤ j ∧ j ≤ s.wlast then
    let v := { s.vc with w := j }
    some ({ s with vc := if acquire then v.join (s.W j).view else v }, (s.W j).val)
  else none

/-- Load of `read_index_` by the consumer. -/
def St.loadRC (s : St α) (j : Nat) : Option (St α × SizeT) :=
  if s.vc.r ≤ j ∧ j ≤ s.rlast then some ({ s with vc := { s.vc with r := j } }, (s.R j).val) else none

/-- `write_index_.store( x, memory_order_release )` by the producer, publishing the values `vs`. -/
def St.storeW (s : St α) (x : SizeT) (vs : List α) : St α :=
  let v := { s.vp with w := s.wlast + 1 }
  { s with vp := v, wlast := s.wlast + 1, acc := s.acc ++ vs
           W := upd s.W (s.wlast + 1) ⟨x, v, s.acc.length + vs.length⟩ }

/-- `read_index_.store( x, memory_order_release )` by the consumer, releasing `k` slots. -/
def St.storeR (s : St α) (x : SizeT) (k : Nat) : St α :=
  let v := { s.vc with r := s.rlast + 1 }
  { s with vc := v, rlast := s.rlast + 1
           R := upd s.R (s.rlast + 1) ⟨x, v, (s.R s.rlast).cnt + k⟩ }

/-! ### Control flow -/

/-- Which role may call what: only one thread pushes, only one pops. -/
def start : Nat → Op α → Option (PC α)
  | 0, .push v => some (.push1 v)
  | 0, .pushMany vs => some (.rng1 vs)
  | 0, .writeAvail => some .wav1
  | 0, .isEmpty => some .emp1
  | 1, .isEmpty => some .emp1
  | 1, .pop => some .one1
  | 1, .popMany copy lim => some (.bulk1 copy lim)
  | 1, .readAvail => some .rav1
  | 1, .front checked => some (if checked then .frt1 else .frt3)
  | _, _ => none

/-- After an element was copied (or at the beginning of a section): loop on, go to the second section, or store. -/
def rngNext (start dst : Nat) (xs rest : List α) (second : Bool) (total : List α) (newW : SizeT) : PC α :=
  if xs = [] then if rest = [] then .rngStore total newW else .rngCopy 0 0 rest [] true total newW
  else .rngCopy start dst xs rest second total newW

/-- spsc_queue.hpp:131-156, after both indices are known. -/
def rngPlan (cfg : Cfg) (vs : List α) (w r : SizeT) : PC α :=
  let avail := writeAvail w r cfg.size
  if avail = 0 then .ret (.pushedMany 0)
  else
    let cnt := BitVec.ofNat 64 (min vs.length avail.toNat)
    let total := vs.take cnt.toNat
    let newW := w + cnt
    if w + cnt > cfg.size then
      let count0 := cfg.size - w
      rngNext w.toNat w.toNat (total.take count0.toNat) (total.drop count0.toNat) false total (newW - cfg.size)
    else
      rngNext w.toNat w.toNat total [] false total (if newW = cfg.size then 0 else newW)

/-- After an element was taken (or at the beginning of a section). -/
def bulkNext (copy : Bool) (i rem rest : Nat) (outs : List α) (newR : SizeT) : PC α :=
  if rem = 0 then if rest = 0 then .bulkStore outs newR else .bulkRead copy 0 rest 0 outs newR
  else .bulkRead copy i rem rest outs newR

/-- spsc_queue.hpp:202-225 and its three siblings, after both indices are known. -/
def bulkPlan (cfg : Cfg) (copy : Bool) (lim : Option Nat) (w r : SizeT) : PC α :=
  let avail := readAvail w r cfg.size
  if avail = 0 then .ret (.poppedMany [])
  else
    let cnt := BitVec.ofNat 64 (atMost lim avail.toNat)
    let newR := r + cnt
    if r + cnt > cfg.size then
      let count0 := cfg.size - r
      let count1 := cnt - count0
      bulkNext copy r.toNat count0.toNat count1.toNat [] (newR - cfg.size)
    else
      bulkNext copy r.toNat cnt.toNat 0 [] (if newR = cfg.size then 0 else newR)

abbrev Out (α : Type) := Option (St α × PC α × Option (Event (Op α) (Ret α)))

/-- Silent step. -/
def tau (s : St α) (p : PC α) : Out α := some (s, p, none)

/-- A step that is undefined behaviour if the access fails. -/
def orErr (s : St α) (x : Option (St α)) (p : PC α) : Out α :=
  match x with
  | none => tau s .err
  | some s' => tau s' p

/-- One step of thread `t`. -/
def tstep (cfg : Cfg) (t : Nat) (s : St α) (p : PC α) : Choice α → Out α
  | .call o => match p with
    | .idle => (start t o).map fun p' => (s, p', some (.inv t o))
    | _ => none
  | .sync => match t with
    | 0 => tau { s with vp := s.vp.join s.vc } p
    | 1 => tau { s with vc := s.vc.join s.vp } p
    | _ => none
  | .throw => match p with
    | .push3 _ _ _ => tau s (.ret .threw)
    | .rngCopy start dst _ _ _ _ _ => tau s (if start = dst then .ret .threw else .rngUnwind start dst)
    | .one3 r => match s.readC cfg r.toNat with
      | none => tau s .err
      | some (s', _) => tau s' (.ret .threw)
    | .bulkRead _ i _ _ _ _ => match s.readC cfg i with
      | none => tau s .err
      | some (s', _) => tau s' (.ret .threw)
    | _ => none
  | .swap j => match p with
    | .emp1 => match t with
      | 0 => (s.loadRP false j).bind fun (s', r) => tau s' (.emp3 r)
      | _ => (s.loadRC j).bind fun (s', r) => tau s' (.emp3 r)
    | _ => none
  | .go j => match p with
    | .idle => none
    | .push1 v => (s.loadWP j).bind fun (s', w) => match nextIndex w cfg.size with
      | none => tau s' .spin
      | some next => tau s' (.push2 v w next)
    | .push2 v w next => (s.loadRP true j).bind fun (s', r) =>
        tau s' (if next = r then .ret (.pushed false) else .push3 v w next)
    | .push3 v w next => orErr s (s.construct cfg w.toNat v) (.push4 v next)
    | .push4 v next => tau (s.storeW next [v]) (.ret (.pushed true))
    | .rng1 vs => (s.loadWP j).bind fun (s', w) => tau s' (.rng2 vs w)
    | .rng2 vs w => (s.loadRP true j).bind fun (s', r) => tau s' (rngPlan cfg vs w r)
    | .rngCopy _ _ [] _ _ _ _ => none
    | .rngCopy start dst (x :: xs) rest second total newW =>
        orErr s (s.construct cfg dst x) (rngNext start (dst + 1) xs rest second total newW)
    | .rngUnwind i stop =>
        orErr s (s.destroyP cfg i) (if i + 1 = stop then .ret .threw else .rngUnwind (i + 1) stop)
    | .rngStore total newW => tau (s.storeW newW total) (.ret (.pushedMany total.length))
    | .wav1 => (s.loadWP j).bind fun (s', w) => tau s' (.wav2 w)
    | .wav2 w => (s.loadRP true j).bind fun (s', r) =>
        tau s' (.ret (.writeAvail (writeAvail w r cfg.size).toNat))
    | .emp1 => match t with
      | 0 => (s.loadWP j).bind fun (s', w) => tau s' (.emp2 w)
      | _ => (s.loadWC false j).bind fun (s', w) => tau s' (.emp2 w)
    | .emp2 w => match t with
      | 0 => (s.loadRP false j).bind fun (s', r) => tau s' (.ret (.isEmpty (w == r)))
      | _ => (s.loadRC j).bind fun (s', r) => tau s' (.ret (.isEmpty (w == r)))
    | .emp3 r => match t with
      | 0 => (s.loadWP j).bind fun (s', w) => tau s' (.ret (.isEmpty (w == r)))
      | _ => (s.loadWC false j).bind fun (s', w) => tau s' (.ret (.isEmpty (w == r)))
    | .one1 => (s.loadWC true j).bind fun (s', w) => tau s' (.one2 w)
    | .one2 w => (s.loadRC j).bind fun (s', r) =>
        tau s' (if w = r then .ret (.popped none) else .one3 r)
    | .one3 r => match s.readC cfg r.toNat with
      | none => tau s .err
      | some (s', v) => tau { s' with out := s'.out ++ [v] } (.one4 v r)
    | .one4 v r => orErr s (s.destroyC cfg r.toNat) (.one5 v r)
    | .one5 v r => match nextIndex r cfg.size with
      | none => tau s .spin
      | some next => tau (s.storeR next 1) (.ret (.popped (some v)))
    | .bulk1 copy lim => (s.loadWC true j).bind fun (s', w) => tau s' (.bulk2 copy lim w)
    | .bulk2 copy lim w => (s.loadRC j).bind fun (s', r) => tau s' (bulkPlan cfg copy lim w r)
    | .bulkRead copy i rem rest outs newR => match s.readC cfg i with
      | none => tau s .err
      | some (s', v) => tau { s' with out := s'.out ++ [v] }
          (if copy && cfg.trivial then bulkNext copy (i + 1) (rem - 1) rest (outs ++ [v]) newR
           else .bulkDestroy copy i rem rest (outs ++ [v]) newR)
    | .bulkDestroy copy i rem rest outs newR =>
        orErr s (s.destroyC cfg i) (bulkNext copy (i + 1) (rem - 1) rest outs newR)
    | .bulkStore outs newR => tau (s.storeR newR outs.length) (.ret (.poppedMany outs))
    | .rav1 => (s.loadWC true j).bind fun (s', w) => tau s' (.rav2 w)
    | .rav2 w => (s.loadRC j).bind fun (s', r) =>
        tau s' (.ret (.readAvail (readAvail w r cfg.size).toNat))
    | .frt1 => (s.loadWC true j).bind fun (s', w) => tau s' (.frt2 w)
    | .frt2 w => (s.loadRC j).bind fun (s', r) =>
        tau s' (if readAvail w r cfg.size = 0 then .ret .asserted else .frt3)
    | .frt3 => (s.loadRC j).bind fun (s', r) => tau s' (.frt4 r)
    | .frt4 r => match s.readC cfg r.toNat with
      | none => tau s .err
      | some (s', v) => tau s' (.ret (.front v))
    | .ret r => some (s, .idle, some (.res t r))
    | .err => none
    | .spin => tau s .spin

def mach (α : Type) (cfg : Cfg) : Mach (St α) (PC α) (Choice α) (Op α) (Ret α) where
  step := tstep cfg
  idle := .idle
  ret := .ret

/-- spsc_queue.hpp:1037-1038, `reset()` for a type with trivial destructor, called while no other operation is in
progress and with the other thread synchronised before and after it: both indices become 0. The earlier stores can no
longer be read, so the modification orders are restarted; the list of accepted elements is restarted as well. -/
def St.reset (s : St α) : St α :=
  let v : View := ⟨s.vp.p, s.vc.c, 0, 0⟩
  { s with W := fun _ => ⟨0, .zero, 0⟩, wlast := 0, R := fun _ => ⟨0, v, 0⟩, rlast := 0
           vp := v, vc := v, acc := [], out := [] }

abbrev Conf (α : Type) := MConf (St α) (PC α)

def Conf.initial : Conf α := ⟨.initial, fun _ => .idle⟩

end Verif.Spsc
