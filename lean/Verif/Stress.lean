import Verif.User

/-!
# The stress tests of stack and queue

test/test_common.hpp (`queue_stress_tester`), as a program that uses a container. Thread numbers: writers first, then readers, then the thread that executes `run`.

Simplifications:
* `data` and `dequeued` (test_helpers.hpp:25-85: buckets, each a `std::set` under a mutex) are lists without order; an operation is one step. The mutexes order nothing here.
* The increments of `push_count`, `pop_count` and of the generator are single steps, and order nothing.
* `writers_finished.load()` may return an old value at any time. A thread that reads `writer_threads` has read the last of the increments, and the increments are
  read-modify-write operations: it synchronises with all of them.
* The checks of `stk.empty()` (:125, :148) are left out; theorems say that the container holds no element at :148.
* An exception thrown by a call ends the thread (in C++ the program).
-/

namespace Verif.Stress
open Lin User

variable {S P Ch O R O' R' : Type}

/-- Numbers of threads and elements; the calls, and how their results are read (`none`: exception); synchronisation by `writers_finished`. -/
structure Setup (Ch R : Type) where
  /-- `writer_threads` (test_common.hpp:31) -/
  writers : Nat
  /-- `reader_threads` (test_common.hpp:30) -/
  readers : Nat
  /-- `node_count` (test_common.hpp:25-29) -/
  count : Nat
  push : Nat → Ch
  pop : Ch
  pushed : R → Option Bool
  popped : R → Option (Option Nat)
  /-- `writers_finished += 1` -/
  exit : List Ch := []
  /-- `writers_finished.load() == writer_threads` -/
  see : List Ch := []

/-- The thread of `run`. -/
def Setup.main (x : Setup Ch R) : Nat := x.writers + x.readers

/-- Shared variables. -/
structure Vars where
  /-- `generate_id()::generator` (test_helpers.hpp:18-23) -/
  generator : Nat
  /-- test_common.hpp:33-39 -/
  finished : Nat
  data : List Nat
  dequeued : List Nat
  push_count : Nat
  pop_count : Nat
  /-- the thread has ended -/
  ended : Nat → Bool

def Vars.init : Vars := ⟨0, 0, [], [], 0, 0, fun _ => false⟩

/-- Places of `add_items`, `get_items` with `consume_element`, `run`. `l` tells whether `pop` is called by the loop at test_common.hpp:112. -/
inductive At where
  /-- test_common.hpp:51: `i != node_count` -/
  | forTest (i : Nat)
  /-- :52: `generate_id()` -/
  | gen (i : Nat)
  /-- :54, :55: `data.insert( id )`, assertion -/
  | insert (i v : Nat)
  /-- :58-69: `stk.push( id ) == false`, or `bounded_push` -/
  | push (i v : Nat)
  /-- :70: `++push_count` -/
  | pushed (i : Nat)
  /-- :72: `writers_finished += 1` -/
  | report
  /-- :81-84: `q.pop( id )` -/
  | pop (l : Bool)
  /-- :86: `data.erase( id )` -/
  | erase (l : Bool) (v : Nat)
  /-- :87-91: `dequeued.insert( id )`, assertions -/
  | insertD (l : Bool) (v : Nat) (erased : Bool)
  /-- :92: `++pop_count` -/
  | counted (l : Bool)
  /-- :104: `writers_finished.load() == writer_threads` -/
  | load
  /-- end of a writer or reader -/
  | leave
  | ended
  /-- an exception left the call -/
  | threw (i : Nat)
  /-- :139: `writer.join_all()` -/
  | joinWriters
  /-- :143: `reader.join_all()` -/
  | joinReaders
  /-- :147: `data.count_nodes() == 0` -/
  | check
  /-- :150, :151: `push_count == pop_count`, `push_count == writer_threads * node_count` -/
  | counts
  | passed
  /-- an assertion or a check has failed -/
  | failed
  /-- no such thread -/
  | absent
  deriving DecidableEq

/-- The program (test_common.hpp:48-152). -/
def script (x : Setup Ch R) : Script Vars At Ch R where
  calls
    | .push _ v => some (x.push v)
    | .pop _ => some x.pop
    | _ => none
  next
    | .push i v, r =>
      match x.pushed r with
      | some true => .pushed i
      | some false => .push i v
      | none => .threw i
    | .pop l, r =>
      match x.popped r with
      | some (some v) => .erase l v
      | some none => if l then .leave else .load
      | none => .threw 0
    | k, _ => k
  act t g k b :=
    match k with
    | .forTest i => some (g, [], if i = x.count then .report else .gen i)
    | .gen i => some ({ g with generator := g.generator + 1 }, [], .insert i (g.generator + 1))
    | .insert i v => if v ∈ g.data then some (g, [], .failed) else some ({ g with data := v :: g.data }, [], .push i v)
    | .pushed i => some ({ g with push_count := g.push_count + 1 }, [], .forTest (i + 1))
    | .report => some ({ g with finished := g.finished + 1 }, x.exit, .leave)
    | .erase l v => some ({ g with data := g.data.erase v }, [], .insertD l v (decide (v ∈ g.data)))
    | .insertD l v erased =>
      if erased = true ∧ v ∉ g.dequeued then some ({ g with dequeued := v :: g.dequeued }, [], .counted l) else some (g, [], .failed)
    | .counted l => some ({ g with pop_count := g.pop_count + 1 }, [], .pop l)
    | .load => if b then (if g.finished = x.writers then some (g, x.see, .pop true) else none) else some (g, [], .pop false)
    | .leave => some ({ g with ended := upd g.ended t true }, [], .ended)
    | .joinWriters => if (List.range x.writers).all g.ended then some (g, [], .joinReaders) else none
    | .joinReaders => if (List.range x.readers).all fun i => g.ended (x.writers + i) then some (g, [], .check) else none
    | .check => some (g, [], if g.data = [] then .counts else .failed)
    | .counts => some (g, [], if g.push_count = g.pop_count ∧ g.push_count = x.writers * x.count then .passed else .failed)
    | _ => none

/-- Where threads start (test_common.hpp:127-135). -/
def start (x : Setup Ch R) (t : Nat) : At :=
  if t < x.writers then .forTest 0 else if t < x.main then .pop false else if t = x.main then .joinWriters else .absent

/-- Executions of the stress test, the container being in the state `s`. -/
abbrev Runs (m : Mach S P Ch O R) (x : Setup Ch R) (ok : S → P → Ch → Prop) (s : S) (h : History O R) (C : MConf (S × Vars) (User.PC At P)) : Prop :=
  User.Runs m (script x) .absent ok s Vars.init (start x) h C

/-! ### Steps outside the container -/

inductive Acts (x : Setup Ch R) (t : Nat) (g : Vars) : At → Vars → List Ch → At → Prop where
  | over : Acts x t g (.forTest x.count) g [] .report
  | more {i} : i ≠ x.count → Acts x t g (.forTest i) g [] (.gen i)
  | gen {i} : Acts x t g (.gen i) { g with generator := g.generator + 1 } [] (.insert i (g.generator + 1))
  | insert {i v} : v ∉ g.data → Acts x t g (.insert i v) { g with data := v :: g.data } [] (.push i v)
  | insertFail {i v} : v ∈ g.data → Acts x t g (.insert i v) g [] .failed
  | pushed {i} : Acts x t g (.pushed i) { g with push_count := g.push_count + 1 } [] (.forTest (i + 1))
  | report : Acts x t g .report { g with finished := g.finished + 1 } x.exit .leave
  | erase {l v} : Acts x t g (.erase l v) { g with data := g.data.erase v } [] (.insertD l v (decide (v ∈ g.data)))
  | insertD {l v} : v ∉ g.dequeued → Acts x t g (.insertD l v true) { g with dequeued := v :: g.dequeued } [] (.counted l)
  | insertDFail {l v e} : e = false ∨ v ∈ g.dequeued → Acts x t g (.insertD l v e) g [] .failed
  | counted {l} : Acts x t g (.counted l) { g with pop_count := g.pop_count + 1 } [] (.pop l)
  | see : g.finished = x.writers → Acts x t g .load g x.see (.pop true)
  | again : Acts x t g .load g [] (.pop false)
  | leave : Acts x t g .leave { g with ended := upd g.ended t true } [] .ended
  | joinWriters : (∀ u < x.writers, g.ended u = true) → Acts x t g .joinWriters g [] .joinReaders
  | joinReaders : (∀ u, x.writers ≤ u → u < x.main → g.ended u = true) → Acts x t g .joinReaders g [] .check
  | check : g.data = [] → Acts x t g .check g [] .counts
  | checkFail : g.data ≠ [] → Acts x t g .check g [] .failed
  | counts : Acts x t g .counts g [] .passed
  | countsFail : ¬ (g.push_count = g.pop_count ∧ g.push_count = x.writers * x.count) → Acts x t g .counts g [] .failed

theorem acts_of_act {x : Setup Ch R} {t : Nat} {g g' : Vars} {k k' : At} {b : Bool} {l : List Ch} (h : (script x).act t g k b = some (g', l, k')) :
    Acts x t g k g' l k' := by
  cases k <;> simp only [script] at h
  case forTest i =>
    split at h <;> rename_i hi
    · subst hi; cases h; exact .over
    · cases h; exact .more hi
  case gen => cases h; exact .gen
  case insert =>
    split at h <;> rename_i hi
    · cases h; exact .insertFail hi
    · cases h; exact .insert hi
  case pushed => cases h; exact .pushed
  case report => cases h; exact .report
  case erase => cases h; exact .erase
  case insertD l v e =>
    split at h <;> rename_i hi
    · obtain ⟨rfl, hi⟩ := hi; cases h; exact .insertD hi
    · cases h
      refine .insertDFail ?_
      cases e with
      | false => exact .inl rfl
      | true => exact .inr (by simpa using hi)
  case counted => cases h; exact .counted
  case load =>
    split at h
    · split at h
      · rename_i hi; cases h; exact .see hi
      · cases h
    · cases h; exact .again
  case leave => cases h; exact .leave
  case joinWriters =>
    split at h <;> rename_i hi
    · cases h; exact .joinWriters (by simpa using hi)
    · cases h
  case joinReaders =>
    split at h <;> rename_i hi
    · cases h
      refine .joinReaders fun u h1 h2 => ?_
      simp only [List.all_eq_true, List.mem_range] at hi
      have h3 : x.main = x.writers + x.readers := rfl
      have := hi (u - x.writers) (by omega)
      rwa [show x.writers + (u - x.writers) = u by omega] at this
    · cases h
  case check =>
    split at h <;> rename_i hi
    · cases h; exact .check hi
    · cases h; exact .checkFail hi
  case counts =>
    split at h <;> rename_i hi
    · cases h; exact .counts
    · cases h; exact .countsFail hi
  all_goals cases h

/-- The program synchronises by `writers_finished` only. -/
theorem syncs_of_act {Ch R : Type} {x : Setup Ch R} {t g k b y} (h : (script x).act t g k b = some y) : y.2.1 = [] ∨ y.2.1 = x.exit ∨ y.2.1 = x.see := by
  obtain ⟨g', l, k'⟩ := y
  cases acts_of_act h <;> simp

end Verif.Stress
