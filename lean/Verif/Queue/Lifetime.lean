import Verif.Queue.WeakExamples

/-!
# Queue: what the node constructor reads (queue.hpp:115-123)

`node( T const&, handle_type )` does not initialise `next`, loads it, and stores it back with the next tag. The default constructors
of the handle types leave the handle uninitialised (freelist.hpp:268, tagged_ptr_dcas.hpp:35, tagged_ptr_ptrcompression.hpp:62),
so in C++ the loaded value is indeterminate: the bytes that the freelist has left there belong to an object whose lifetime has ended,
and compilers may discard them. `Queue.Model` lets the load return these bytes. Here it may return anything.
-/

namespace Verif.Queue
open Lin

variable {α : Type}

/-- `tstep`, but the load in the node constructor (queue.hpp:120) may return an arbitrary value. -/
def tstepI (cfg : Cfg) (t : Nat) (s : St α) : PC α → QChoice α → Option (St α × PC α × Option (Event (Op α) (Ret α)))
  | .nload b v n, .torn w => some (s, .nstore b v n w, none)
  | p, ch => tstep cfg t s p ch

/-- The machine of a queue whose node constructor reads an indeterminate value. -/
def machI (α : Type) (cfg : Cfg) : Mach (St α) (PC α) (QChoice α) (Op α) (Ret α) where
  step := tstepI cfg
  idle := .idle
  ret := .ret

/-- Its executions in which no tag wraps completely between a load and the corresponding comparison. -/
abbrev FreshExecI (cfg : Cfg) (n : Nat) (h : History (Op α) (Ret α)) (C : Conf α) : Prop :=
  MSteps (machI α cfg) (okFresh cfg) (Conf.initial cfg n) h C

namespace LifeEx

open Ex (go call)

/-- Thread 0 is about to link its node to node `x`; meanwhile `x` is used and freed, and thread 1 constructs a new node there. The
load in the constructor yields zero, so the link of `x` has the same tag as before, and thread 0 links its node to `x`, which is not in
the queue yet. -/
def sched1 : List (Nat × QChoice Nat) :=
  call 1 (.push false 9) 12 ++ call 0 (.push false 1) 9 ++ call 1 (.push false 2) 12 ++ call 1 .pop 11 ++ call 1 .pop 11 ++
  call 1 (.push false 3) 4 ++ [(1, .torn ⟨none, 0⟩)] ++ go 1 1 ++ go 0 3

/-- The push of thread 0 has returned; thread 2 finds the queue empty. Then the push of thread 1 is completed. -/
def sched2 : List (Nat × QChoice Nat) := call 2 .pop 5 ++ go 1 6

/-- Thread 2 pushes 4 and thread 1 then links `x`; the elements are received in the order 4, 3, 1. -/
def sched3 : List (Nat × QChoice Nat) := call 2 (.push false 4) 12 ++ go 1 6 ++ call 2 .pop 11 ++ call 2 .pop 11 ++ call 2 .pop 16

def hist1 : History (Op Nat) (Ret Nat) :=
  [.inv 1 (.push false 9), .res 1 (.pushed true), .inv 0 (.push false 1), .inv 1 (.push false 2), .res 1 (.pushed true),
   .inv 1 .pop, .res 1 (.popped (some 9)), .inv 1 .pop, .res 1 (.popped (some 2)), .inv 1 (.push false 3), .res 0 (.pushed true)]

def hist2 : History (Op Nat) (Ret Nat) := [.inv 2 .pop, .res 2 (.popped none), .res 1 (.pushed true)]

def hist3 : History (Op Nat) (Ret Nat) :=
  [.inv 2 (.push false 4), .res 2 (.pushed true), .res 1 (.pushed true), .inv 2 .pop, .res 2 (.popped (some 4)),
   .inv 2 .pop, .res 2 (.popped (some 3)), .inv 2 .pop, .res 2 (.popped (some 1))]

/-- `fresh`, computed, also for unbounded tags. -/
def okI (cfg : Cfg) (s : St Nat) (p : PC Nat) (_ : QChoice Nat) : Bool := cfg.M == 0 || Ex.freshB cfg s p

theorem okI_spec {cfg : Cfg} (s : St Nat) (p ch) (h : okI cfg s p ch = true) : okFresh cfg s p ch := by
  simp only [okI, Bool.or_eq_true, beq_iff_eq] at h
  rcases h with h | h
  · cases p with
    | alloc b v a => cases a <;> simp [okFresh, fresh, aFresh, h]
    | _ => simp [okFresh, fresh, h]
  · exact Ex.freshB_spec h

theorem exec_of {cfg : Cfg} {sched h} (hr : ((machI Nat cfg).runOk (okI cfg) (Conf.initial cfg 3) [] sched).map (·.2) = some h) :
    ∃ C, FreshExecI cfg 3 h C := by
  simp only [Option.map_eq_some_iff] at hr
  obtain ⟨⟨C, h'⟩, h1, rfl⟩ := hr
  exact ⟨C, MSteps.runOk okI_spec (.refl _) h1⟩

/-- The tags of the library and unbounded tags. -/
def tagCounts : List Nat := [0, 2 ^ 16, 2 ^ 64]

/-- **C49 (invisible push).** If the load in the node constructor may return an arbitrary value, the queue is not linearizable, whatever
the size of the tags and even if no tag ever wraps: a `push` may return `true`, and a `pop` that starts afterwards find the
queue empty although nobody has received the element. -/
theorem queue_link_value_lost (cfg : Cfg) (hM : cfg.M ∈ tagCounts) :
    ∃ C, FreshExecI cfg 3 (hist1 ++ hist2) C ∧ ¬ Linearizable (spec Nat cfg.fixed) (hist1 ++ hist2) := by
  obtain ⟨M, fixed⟩ := cfg
  have h2 : ¬ Linearizable (spec Nat fixed) (hist1 ++ hist2) :=
    not_linearizable (WEx.specNext fixed) (WEx.specNext_spec fixed) (by cases fixed <;> rfl)
  have h1 : ∃ C, FreshExecI ⟨M, fixed⟩ 3 (hist1 ++ hist2) C := by
    apply exec_of (sched := sched1 ++ sched2)
    simp only [tagCounts, List.mem_cons, List.not_mem_nil, or_false] at hM
    rcases hM with rfl | rfl | rfl <;> cases fixed <;> rfl
  exact ⟨_, h1.choose_spec, h2⟩

set_option maxRecDepth 2000 in
/-- **C49 (order).** Then also the order of pushes is lost: the push of 1 has returned when the push of 4 begins, but the call that
returns 4 is over when the call that returns 1 begins. -/
theorem queue_link_value_order (cfg : Cfg) (hM : cfg.M ∈ tagCounts) :
    ∃ C, FreshExecI cfg 3 (hist1 ++ hist3) C ∧ ¬ Linearizable (spec Nat cfg.fixed) (hist1 ++ hist3) := by
  obtain ⟨M, fixed⟩ := cfg
  have h2 : ¬ Linearizable (spec Nat fixed) (hist1 ++ hist3) :=
    not_linearizable (WEx.specNext fixed) (WEx.specNext_spec fixed) (by cases fixed <;> rfl)
  have h1 : ∃ C, FreshExecI ⟨M, fixed⟩ 3 (hist1 ++ hist3) C := by
    apply exec_of (sched := sched1 ++ sched3)
    simp only [tagCounts, List.mem_cons, List.not_mem_nil, or_false] at hM
    rcases hM with rfl | rfl | rfl <;> cases fixed <;> rfl
  exact ⟨_, h1.choose_spec, h2⟩

end LifeEx
end Verif.Queue
