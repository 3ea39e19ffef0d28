import Verif.ExampleRun
import Verif.Queue.Example
import Verif.Queue.TextExamples
import Verif.Spsc.Example
import Verif.Spsc.TextExamples
import Verif.Stack.Example
import Verif.Stack.TextExamples

/-!
# The example programs: concrete executions (C61)

No further code of /repo is modelled here.
-/

namespace Verif.Stack.Code.ExampleEx
open Lin Text WordEx TextEx Example

/-- Thread `t` makes a call, with `k` accesses. -/
def call {K : Words} (t k : Nat) : List (Nat × Example.Choice (TChoice (SChoice K (Op Nat) Nat) (Op Nat))) :=
  (t, .go) :: List.replicate k (t, .inner (.act .go))

/-- Two producers, two consumers, one iteration. The producer that has counted to 2 pushes first; one consumer pops this value; the other sees `done`, pops 1 and leaves;
the first finds the stack empty, loads `false` from `done` although `true` has been stored, and tries again. -/
def sched {K : Words} : List (Nat × Example.Choice (TChoice (SChoice K (Op Nat) Nat) (Op Nat))) :=
  steps 0 2 ++ steps 1 2 ++ call 1 7 ++ steps 2 1 ++ call 2 8 ++ steps 2 1 ++ call 0 7 ++ steps 0 1 ++ steps 1 1 ++ steps 4 2 ++
  steps 3 1 ++ call 3 8 ++ steps 3 1 ++ call 3 1 ++ steps 3 1 ++ call 2 1 ++ [(2, .stale)] ++ call 2 1 ++ steps 2 1 ++ call 2 1 ++ steps 2 1 ++ steps 4 1

def hist : History (Op Nat) (Ret Nat) :=
  [.inv 1 (.push false 2), .res 1 (.pushed true), .inv 2 (.pop false), .res 2 (.popped (some 2)), .inv 0 (.push false 1), .res 0 (.pushed true),
   .inv 3 (.pop false), .res 3 (.popped (some 1)), .inv 3 (.pop false), .res 3 (.popped none), .inv 2 (.pop false), .res 2 (.popped none),
   .inv 2 (.pop false), .res 2 (.popped none), .inv 2 (.pop false), .res 2 (.popped none)]

set_option maxRecDepth 10000 in
/-- C61: examples/stack.cpp to its end -/
theorem runs : ExampleRuns cRep 2 2 2 1 hist (ending (program cRep Nat) (exampleSetup cRep 2 2 1) okc (SConf.initial cRep 2).s sched) :=
  ending_runs okc_spec rfl

set_option maxRecDepth 10000 in
example : (delivered hist).Perm [1, 2] ∧
    HoldsW cRep (ending (program cRep Nat) (exampleSetup cRep 2 2 1) okc (SConf.initial cRep 2).s sched).s.1 [] :=
  (stack_example cRep_faithful (by decide) runs (by decide) rfl).2.2

end Verif.Stack.Code.ExampleEx

namespace Verif.Queue.Code.ExampleEx
open Lin Text WordEx TextEx Example
open Stack.WordEx (cRep)

/-- Thread `t` makes a call, with `k` accesses. -/
def call {K : Words} (t k : Nat) : List (Nat × Example.Choice (TChoice (SChoice K (Op Nat) Nat) (Op Nat))) :=
  (t, .go) :: List.replicate k (t, .inner (.act .go))

/-- Two producers, two consumers, one iteration. The producer that has counted to 2 pushes first; one consumer pops this value; the other sees `done`, pops 1 and leaves;
the first finds the queue empty, loads `false` from `done` although `true` has been stored, and tries again. -/
def sched {K : Words} : List (Nat × Example.Choice (TChoice (SChoice K (Op Nat) Nat) (Op Nat))) :=
  steps 0 2 ++ steps 1 2 ++ call 1 11 ++ steps 2 1 ++ call 2 10 ++ steps 2 1 ++ call 0 11 ++ steps 0 1 ++ steps 1 1 ++ steps 4 2 ++
  steps 3 1 ++ call 3 10 ++ steps 3 1 ++ call 3 4 ++ steps 3 1 ++ call 2 4 ++ [(2, .stale)] ++ call 2 4 ++ steps 2 1 ++ call 2 4 ++ steps 2 1 ++ steps 4 1

def hist : History (Op Nat) (Ret Nat) :=
  [.inv 1 (.push false 2), .res 1 (.pushed true), .inv 2 .pop, .res 2 (.popped (some 2)), .inv 0 (.push false 1), .res 0 (.pushed true),
   .inv 3 .pop, .res 3 (.popped (some 1)), .inv 3 .pop, .res 3 (.popped none), .inv 2 .pop, .res 2 (.popped none),
   .inv 2 .pop, .res 2 (.popped none), .inv 2 .pop, .res 2 (.popped none)]

set_option maxRecDepth 10000 in
/-- C61: examples/queue.cpp to its end -/
theorem runs : ExampleRuns cRep 2 2 2 1 hist (ending (program cRep Nat) (exampleSetup cRep 2 2 1) okc (SConf.initial cRep 2).s sched) :=
  ending_runs okc_spec rfl

set_option maxRecDepth 10000 in
example : (delivered hist).Perm [1, 2] ∧
    HoldsW cRep (ending (program cRep Nat) (exampleSetup cRep 2 2 1) okc (SConf.initial cRep 2).s sched).s.1 [] :=
  (queue_example cRep_faithful (by decide) runs (by decide) rfl).2.2

end Verif.Queue.Code.ExampleEx

namespace Verif.Spsc.Code.ExampleEx
open Lin Text TextEx Example

/-- Thread `t` makes a call, with these choices. -/
def call (t : Nat) (l : List Nat) : List (Nat × Example.Choice (TChoice (Spsc.Choice Nat) (Op Nat))) :=
  (t, .go) :: l.map fun i => (t, .inner (.act (.go i)))

/-- Three iterations, a queue for two elements. The third `push` finds it full; the consumer, whose loads are out of date, finds the queue empty three times, loads `true` from
`done`, and then takes all that is left. -/
def sched : List (Nat × Example.Choice (TChoice (Spsc.Choice Nat) (Op Nat))) :=
  steps 0 2 ++ call 0 [0, 0, 0, 0] ++ steps 0 2 ++ call 0 [1, 0, 0, 0] ++ steps 0 2 ++ call 0 [2, 0] ++ steps 1 1 ++ call 1 [0, 0] ++
  steps 1 1 ++ call 1 [1, 0, 0, 0, 0] ++ steps 1 1 ++ call 0 [2, 1, 0, 0] ++ steps 0 1 ++ steps 2 2 ++ call 1 [1, 1] ++ [(1, .stale)] ++
  call 1 [2, 1, 0, 0, 0] ++ steps 1 1 ++ call 1 [2, 2] ++ steps 1 1 ++ call 1 [3, 2, 0, 0, 0] ++ steps 1 1 ++ call 1 [3, 3] ++ steps 1 1 ++ steps 2 1

def hist : History (Op Nat) (Ret Nat) :=
  [.inv 0 (.push 1), .res 0 (.pushed true), .inv 0 (.push 2), .res 0 (.pushed true), .inv 0 (.push 3), .res 0 (.pushed false),
   .inv 1 .pop, .res 1 (.popped none), .inv 1 .pop, .res 1 (.popped (some 1)), .inv 0 (.push 3), .res 0 (.pushed true),
   .inv 1 .pop, .res 1 (.popped none), .inv 1 .pop, .res 1 (.popped (some 2)), .inv 1 .pop, .res 1 (.popped none),
   .inv 1 .pop, .res 1 (.popped (some 3)), .inv 1 .pop, .res 1 (.popped none)]

set_option maxRecDepth 10000 in
/-- C61: examples/spsc_queue.cpp to its end -/
theorem runs : ExampleRuns cfg2 false 3 hist (ending (program Nat cfg2 false) (exampleSetup 3) okc St.initial sched) := ending_runs okc_spec rfl

set_option maxRecDepth 10000 in
example : delivered hist = [1, 2, 3] ∧ (ending (program Nat cfg2 false) (exampleSetup 3) okc St.initial sched).s.2.consumer_count = 3 := by
  have := spsc_example cfg2_holds runs rfl
  exact ⟨this.2.2.1, this.2.1⟩

end Verif.Spsc.Code.ExampleEx
