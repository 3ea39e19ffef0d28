import Verif.Both
import Verif.Freelist.Props
import Verif.Queue.Stress

/-!
# The stress test of the freelists (C68)

`freelist_tester` (test/freelist_test.cpp:122-207): allocators take nodes from a freelist and push them to a queue, deallocators pop them and give them back. It is a
program that uses two containers (`Both`). Thread numbers: allocators first, then deallocators, then the thread that executes `run`.

Simplifications:
* `working_set` (test_helpers.hpp:25-85: buckets, each a `std::set` under a mutex) is a list without order; an operation is one step.
* A `dummy*` is the number of the node. The assertions of `dummy` (freelist_test.cpp:34-46: `allocated` is 0 before construction and 1 before destruction, while
  `test_running`) are part of the model of the freelist: construction of an object in a node that has one, and destruction where there is none, are undefined behaviour.
* `running.load()` may return an old value at any time. A thread that reads `false` has read the store at :161.
* An exception thrown by a call ends the thread (in C++ the program). The constructor of `dummy` throws none.
* All threads start at once.
-/

namespace Verif.Freelist.Tester
open Lin User Both

/-- Numbers of threads and operations. -/
structure Setup where
  /-- `thread_count` (freelist_test.cpp:126), for the allocators -/
  allocators : Nat
  /-- for the deallocators -/
  deallocators : Nat
  /-- `operations_per_thread` (:127-131) -/
  count : Nat
  /-- template parameter `bounded` (:122) -/
  bounded : Bool

/-- The thread of `run`. -/
def Setup.main (x : Setup) : Nat := x.allocators + x.deallocators

/-- Shared variables. -/
structure Vars where
  /-- freelist_test.cpp:137 -/
  working_set : List Nat
  /-- :136 -/
  running : Bool
  /-- the thread has ended -/
  ended : Nat → Bool

/-- :147: `running = true`. -/
def Vars.init : Vars := ⟨[], true, fun _ => false⟩

/-- Places of `allocate`, `deallocate`, `run`. `l` tells whether the loop is that at freelist_test.cpp:201-206. -/
inductive At where
  /-- freelist_test.cpp:167: `i != operations_per_thread` -/
  | forTest (i : Nat)
  /-- :169, :170: `fl.construct< true, bounded >()` -/
  | construct (i : Nat)
  /-- :171-173: `working_set.insert( node )`, assertion -/
  | insert (i n : Nat)
  /-- :174: `allocated_nodes.push( node )` -/
  | push (i n : Nat)
  /-- :185, :201: `allocated_nodes.pop( node )` -/
  | pop (l : Bool)
  /-- :186-188, :202-204: `working_set.erase( node )`, assertion -/
  | erase (l : Bool) (n : Nat)
  /-- :189, :205: `fl.destruct< true >( node )` -/
  | destruct (l : Bool) (n : Nat)
  /-- :192: `running.load() == false` -/
  | load
  /-- end of `allocate` or `deallocate` -/
  | leave
  | ended
  /-- an exception left the call -/
  | threw
  /-- :159: `alloc_threads.join_all()` -/
  | joinAlloc
  /-- :161: `running = false` -/
  | stop
  /-- :162: `dealloc_threads.join_all()` -/
  | joinDealloc
  | finished
  /-- an assertion has failed -/
  | failed
  /-- no such thread -/
  | absent
  deriving DecidableEq

/-- The calls. -/
def Setup.ops (x : Setup) : At → Option (Op Unit ⊕ Queue.Op Nat)
  | .construct _ => some (.inl (.construct x.bounded () false))
  | .destruct _ n => some (.inl (.destruct n))
  | .push _ n => some (.inr (.push false n))
  | .pop _ => some (.inr .pop)
  | _ => none

/-- What follows a call. -/
def next : At → Ret ⊕ Queue.Ret Nat → At
  | .construct i, .inl (.node (some n)) => .insert i n
  | .construct i, .inl (.node none) => .construct i
  | .destruct l _, .inl .done => if l then .pop true else .load
  | .push i _, .inr (.pushed _) => .forTest (i + 1)
  | .pop l, .inr (.popped (some n)) => .erase l n
  | .pop l, .inr (.popped none) => if l then .leave else .load
  | _, _ => .threw

/-- Steps outside the containers. -/
def Setup.act (x : Setup) (t : Nat) (g : Vars) (b : Bool) : At → Option (Vars × At)
  | .forTest i => some (g, if i = x.count then .leave else .construct i)
  | .insert i n => some (if n ∈ g.working_set then (g, .failed) else ({ g with working_set := n :: g.working_set }, .push i n))
  | .erase l n => some (if n ∈ g.working_set then ({ g with working_set := g.working_set.erase n }, .destruct l n) else (g, .failed))
  | .load => if b then (if g.running then none else some (g, .pop true)) else some (g, .pop false)
  | .leave => some ({ g with ended := upd g.ended t true }, .ended)
  | .joinAlloc => if (List.range x.allocators).all g.ended then some (g, .stop) else none
  | .stop => some ({ g with running := false }, .joinDealloc)
  | .joinDealloc => if (List.range x.deallocators).all fun i => g.ended (x.allocators + i) then some (g, .finished) else none
  | _ => none

/-- The program (freelist_test.cpp:145-207); `call₁`, `call₂`: how the containers are called. -/
def script {C₁ C₂ : Type} (x : Setup) (call₁ : Op Unit → C₁) (call₂ : Queue.Op Nat → C₂) : Script Vars At (C₁ ⊕ C₂) (Ret ⊕ Queue.Ret Nat) where
  calls k := (x.ops k).map (Sum.map call₁ call₂)
  next := next
  act t g k b := (x.act t g b k).map fun y => (y.1, [], y.2)

/-- Where threads start (freelist_test.cpp:154-158). -/
def start (x : Setup) (t : Nat) : At :=
  if t < x.allocators then .forTest 0 else if t < x.main then .pop false else if t = x.main then .joinAlloc else .absent

section
variable {S₁ P₁ C₁ S₂ P₂ C₂ : Type}

/-- Executions, with a freelist and a queue in the states `s₁` and `s₂`. -/
abbrev RunsOn (m₁ : Mach S₁ P₁ C₁ (Op Unit) Ret) (m₂ : Mach S₂ P₂ C₂ (Queue.Op Nat) (Queue.Ret Nat)) (call₁ : Op Unit → C₁) (call₂ : Queue.Op Nat → C₂)
    (ok₁ : S₁ → P₁ → C₁ → Prop) (ok₂ : S₂ → P₂ → C₂ → Prop) (s₁ : S₁) (s₂ : S₂) (x : Setup) (h : History (Op Unit ⊕ Queue.Op Nat) (Ret ⊕ Queue.Ret Nat))
    (C : MConf ((S₁ × S₂) × Vars) (User.PC At (Both.PC P₁ P₂))) : Prop :=
  User.Runs (both m₁ m₂) (script x call₁ call₂) .absent (okBoth m₁ m₂ ok₁ ok₂) (s₁, s₂) Vars.init (start x) h C

end

abbrev TesterConf (F Q : Rep) :=
  MConf ((SMem F.K Unit × Queue.SSt Q.K Nat) × Vars)
    (User.PC At (Both.PC (Text.TPC (SMem F.K Unit) (Loc F.K Unit) (SChoice F.K (Op Unit) Unit) Ret)
      (Text.TPC (Queue.SSt Q.K Nat) (Queue.Code.Loc Q.K Nat) (SChoice Q.K (Queue.Op Nat) Nat) (Queue.Ret Nat))))

/-- Executions of the test, with a freelist constructed for `size` nodes (freelist_test.cpp:141) and a queue constructed for `n` elements (:142). -/
abbrev Runs (F Q : Rep) (size n : Nat) (x : Setup) (h : History (Op Unit ⊕ Queue.Op Nat) (Ret ⊕ Queue.Ret Nat)) (C : TesterConf F Q) : Prop :=
  RunsOn (program F Unit).mach (Queue.Code.program Q Nat).mach .call .call (Text.Program.ok fun _ _ => True) (Text.Program.ok fun _ _ => True)
    (SMem.initial F size) (Queue.SConf.initial Q n).s x h C

end Verif.Freelist.Tester
