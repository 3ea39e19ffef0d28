import Verif.UserSince
import Verif.Spsc.Example

/-!
# The stress tests of `spsc_queue`: the program

test/spsc_queue_stress_test.cpp, as a program that uses the program text of `spsc_queue`. Thread 0 is the writer (`add`), 1 the reader (`get`), 2 executes `run`.
The two testers differ in the calls they make: single elements (`spsc_queue_tester`, :33-114), or buffers (`spsc_queue_tester_buffering`, :122-218).

Simplifications:
* `working_set` (test_helpers.hpp:25-85: buckets, each a `std::set` under a mutex) is a list; an operation is one step. The mutexes order nothing here.
* The increments of `spsc_queue_cnt`, `received_nodes` and of the generator are single steps, and order nothing. Integers are unbounded.
* `running` may be read as an old `true` at any time. A reader that loads `false` synchronises with the writer.
* The calls of `empty()` by `run` (:98, :111, :215) are left out; theorems say that the queue holds no element at :111, :215.
* An exception thrown by a call ends the thread (in C++ the program).
-/

namespace Verif.Spsc.Stress
open Lin User Text Code

/-- Parameters of the tests. -/
structure Plan where
  /-- `none`: `spsc_queue_tester`; `some n`: `spsc_queue_tester_buffering` with `buf_size = n` (spsc_queue_stress_test.cpp:142) -/
  buffer : Option Nat
  /-- `nodes_per_thread` (:27-31) -/
  total : Nat
  /-- the generator of `generate_id` is shared by the tests (test_helpers.hpp:18-23); its value at the beginning -/
  first : Nat

/-- The number of elements generated before they are pushed. -/
def Plan.size (x : Plan) : Nat := x.buffer.getD 1

/-- `sf.push( id )` (spsc_queue_stress_test.cpp:57), `sf.push( input_buffer.c_array() + pushed, input_buffer.size() - pushed )` (:157). -/
def Plan.push (x : Plan) (l : List Nat) : Op Nat :=
  match x.buffer with
  | none => .push (l.headD 0)
  | some _ => .pushMany l

/-- `sf.pop( data )` (:67), `sf.pop( output_buffer.c_array(), output_buffer.size() )` (:169). -/
def Plan.pop (x : Plan) : Op Nat :=
  match x.buffer with
  | none => .pop
  | some n => .popMany true (some n)

/-- The number of elements pushed. `none`: exception. -/
def Plan.pushed (x : Plan) (r : Ret Nat) : Option Nat :=
  match x.buffer, r with
  | none, .pushed b => some b.toNat
  | some _, .pushedMany k => some k
  | _, _ => none

/-- The elements popped. `none`: exception. -/
def Plan.popped (x : Plan) (r : Ret Nat) : Option (List Nat) :=
  match x.buffer, r with
  | none, .popped v => some v.toList
  | some _, .poppedMany vs => some vs
  | _, _ => none

/-- Shared variables (spsc_queue_stress_test.cpp:37-44, :80, :126-135, :186). -/
structure Vars where
  /-- `generate_id()::generator` (test_helpers.hpp:18-23) -/
  generator : Nat
  working_set : List Nat
  cnt : Int
  received : Nat
  running : Bool
  /-- the thread has ended -/
  ended : Nat → Bool

/-- `running = true` (:96, :202), before the threads are created. -/
def Vars.init (x : Plan) : Vars := ⟨x.first, [], 0, 0, true, fun _ => false⟩

/-- Places of `add`, `get` with `get_element(s)`, `run`. `l` tells whether `get_element(s)` is called by the loop at :90, :196. -/
inductive At where
  /-- :53, :147: `i != nodes_per_thread` -/
  | forTest (i : Nat)
  /-- :54, :148, :149: `generate_id()` -/
  | fill (i : Nat) (buf : List Nat)
  /-- :55, :150, :151: `working_set.insert( id )` -/
  | insert (i : Nat) (buf : List Nat) (v : Nat)
  /-- :57, :156-158: `push`, until all elements are pushed; `p` of them are -/
  | push (i : Nat) (buf : List Nat) (p : Nat)
  /-- :59, :160: `++spsc_queue_cnt`, `spsc_queue_cnt += buf_size` -/
  | counted (i : Nat)
  /-- :61, :162: `running = false` -/
  | report
  /-- an exception left `push` -/
  | threw (i p : Nat)
  /-- :67, :169: `pop` -/
  | pop (l : Bool)
  /-- :70, :172: `++received_nodes`, `received_nodes += popd` -/
  | take (l : Bool) (vs : List Nat)
  /-- :71, :173: `--spsc_queue_cnt`, `spsc_queue_cnt -= popd` -/
  | dec (l : Bool) (vs : List Nat)
  /-- :72-74, :175-179: `working_set.erase( data )`, assertion -/
  | erase (l : Bool) (vs : List Nat)
  /-- :86, :192: `!running && !success` -/
  | test (success : Bool)
  /-- an exception left `pop` -/
  | rthrew
  /-- end of writer or reader -/
  | leave
  | ended
  /-- :104, :208: `writer.join()` -/
  | joinWriter
  /-- :107, :211: `reader.join()` -/
  | joinReader
  /-- :109, :213: `received_nodes == nodes_per_thread` -/
  | checkReceived
  /-- :110, :214: `spsc_queue_cnt == 0` -/
  | checkCnt
  /-- :112, :216: `working_set.count_nodes() == 0` -/
  | checkSet
  | passed
  /-- an assertion or a check has failed -/
  | failed
  /-- no such thread -/
  | absent
  deriving DecidableEq

/-- `static_hashed_set::insert` (test_helpers.hpp:37-47). -/
def insertNew (v : Nat) (w : List Nat) : List Nat := if v ∈ w then w else w ++ [v]

/-- The program (spsc_queue_stress_test.cpp:51-113, :144-217), with the given synchronisation for a load of `running` that returns `false`. -/
def scriptWith (see : List (TChoice (Spsc.Choice Nat) (Op Nat))) (x : Plan) : Script Vars At (TChoice (Spsc.Choice Nat) (Op Nat)) (Ret Nat) where
  calls
    | .push _ buf p => some (.call (x.push (buf.drop p)))
    | .pop _ => some (.call x.pop)
    | _ => none
  next
    | .push i buf p, r =>
      match x.pushed r with
      | some k => if p + k = x.size then .counted i else .push i buf (p + k)
      | none => .threw i p
    | .pop l, r =>
      match x.popped r with
      | some [] => if l then .leave else .test false
      | some (v :: vs) => .take l (v :: vs)
      | none => .rthrew
    | k, _ => k
  act t g k b :=
    match k with
    | .forTest i => some (g, [], if i = x.total then .report else .fill i [])
    | .fill i buf =>
      if buf.length = x.size then some (g, [], .push i buf 0)
      else some ({ g with generator := g.generator + 1 }, [], .insert i buf (g.generator + 1))
    | .insert i buf v => some ({ g with working_set := insertNew v g.working_set }, [], .fill i (buf ++ [v]))
    | .counted i => some ({ g with cnt := g.cnt + x.size }, [], .forTest (i + x.size))
    | .report => some ({ g with running := false }, [], .leave)
    | .take l vs => some ({ g with received := g.received + vs.length }, [], .dec l vs)
    | .dec l vs => some ({ g with cnt := g.cnt - vs.length }, [], .erase l vs)
    | .erase l [] => some (g, [], if l then .pop true else .test true)
    | .erase l (v :: vs) => if v ∈ g.working_set then some ({ g with working_set := g.working_set.erase v }, [], .erase l vs) else some (g, [], .failed)
    | .test success =>
      if b then if g.running then none else some (g, see, .pop (!success))
      else some (g, [], .pop false)
    | .leave => some ({ g with ended := upd g.ended t true }, [], .ended)
    | .joinWriter => if g.ended 0 then some (g, [], .joinReader) else none
    | .joinReader => if g.ended 1 then some (g, [], .checkReceived) else none
    | .checkReceived => some (g, [], if g.received = x.total then .checkCnt else .failed)
    | .checkCnt => some (g, [], if g.cnt = 0 then .checkSet else .failed)
    | .checkSet => some (g, [], if g.working_set.length = 0 then .passed else .failed)
    | _ => none

/-- The program: `running` is an atomic variable, accessed with the default memory order. -/
abbrev script (x : Plan) : Script Vars At (TChoice (Spsc.Choice Nat) (Op Nat)) (Ret Nat) := scriptWith [.env .sync] x

/-- Where the threads begin (spsc_queue_stress_test.cpp:100-104, :204-208). -/
def start : Nat → At
  | 0 => .forTest 0
  | 1 => .pop false
  | 2 => .joinWriter
  | _ => .absent

end Verif.Spsc.Stress

namespace Verif.Spsc.Code
open Lin Text Stress

abbrev SPC := User.PC Stress.At (TPC (St Nat) (Loc Nat) (Spsc.Choice Nat) (Ret Nat))
abbrev SConf := MConf (St Nat × Stress.Vars) SPC

/-- Executions of the stress tests, under release/acquire memory (`sc = false`) or with loads that return the latest store (`sc = true`). -/
abbrev StressRuns (cfg : Cfg) (sc : Bool) (x : Plan) (h : History (Op Nat) (Ret Nat)) (C : SConf) : Prop :=
  User.Runs (program Nat cfg sc).mach (script x) .absent (Program.ok okCall) St.initial (Vars.init x) Stress.start h C

variable {cfg : Cfg} {sc : Bool} {N : Nat} {h h' : History (Op Nat) (Ret Nat)} {x : Plan} {C : SConf}

/-- The call made at a place. -/
def opAt (x : Plan) : Stress.At → Op Nat
  | .push _ buf p => x.push (buf.drop p)
  | _ => x.pop

theorem stress_plays : User.Plays (program Nat cfg sc).mach (script x) (Program.ok okCall) where
  call k ch hk t s s' p' e h := by
    have : ∃ o, ch = .call o := by
      cases k <;> simp only [script, scriptWith] at hk <;> cases hk <;> exact ⟨_, rfl⟩
    obtain ⟨o, rfl⟩ := this
    simp only [Program.mach, Option.map_eq_some_iff] at h
    obtain ⟨y, _, h⟩ := h
    cases h
    exact ⟨by simp [Program.mach], _, rfl⟩
  step t s q ch s' q' e hq h := Example.text_step _ hq h
  sync t g k b y h ch hch s := by
    have : ch = .env .sync := by
      revert hch
      cases k <;> simp only [script, scriptWith] at h
      case test => split at h <;> first | (split at h <;> cases h <;> simp) | (cases h; simp)
      case erase l vs => cases vs <;> simp only at h <;> first | (split at h <;> cases h <;> simp) | (cases h; simp)
      all_goals first | (cases h <;> simp) | (split at h <;> cases h <;> simp)
    subst this
    refine ⟨trivial, fun t s' p' e h => ?_⟩
    simp only [Program.mach, Option.map_eq_some_iff] at h
    obtain ⟨y, _, h⟩ := h
    cases h
    exact ⟨rfl, rfl⟩

theorem stress_reads : User.Reads (program Nat cfg sc).mach (script x) id (opAt x) where
  call k ch hk t s s' p' e h := by
    have : ch = .call (opAt x k) := by
      cases k <;> simp only [script, scriptWith] at hk <;> cases hk <;> rfl
    subst this
    simp only [Program.mach, Option.map_eq_some_iff] at h
    obtain ⟨y, _, h⟩ := h
    cases h
    exact ⟨_, rfl, rfl⟩

theorem stress_exec (hx : StressRuns cfg sc x h C) : TextExec cfg sc h (User.baseOf (program Nat cfg sc).mach C) :=
  ⟨_, .fresh, User.Runs.base stress_plays stress_reads hx⟩

end Verif.Spsc.Code
