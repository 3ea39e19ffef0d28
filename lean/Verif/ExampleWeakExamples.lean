import Verif.Queue.ExampleWeak
import Verif.Queue.WeakTextExamples
import Verif.Stack.ExampleWeak
import Verif.Stack.WeakTextExamples

/-!
# The example programs under release/acquire memory: concrete executions, and what does not hold (C64)

No further code of /repo is modelled here.
-/

namespace Verif.Example.RaRun
open Lin

variable {S P Ch O R : Type} {m : Mach S P Ch O R} {x : Setup Ch R} {ok : S → P → Ch → Prop} {okB : S → P → Ch → Bool} {tau : Ch}

/-- `okBy`, computed. -/
def okByB (m : Mach S P Ch O R) (x : Setup Ch R) (okB : S → P → Ch → Bool) (σ : S × Vars) : PC P → Choice Ch → Bool
  | .at (.push _ v), .go => okB σ.1 m.idle (x.push v)
  | .at (.pop _), .go => okB σ.1 m.idle x.pop
  | .call _ p, .inner ch => okB σ.1 p ch
  | _, _ => true

theorem okByB_spec (hc : ∀ s p ch, okB s p ch = true → ok s p ch) {σ : S × Vars} {p ch} (h : okByB m x okB σ p ch = true) : okBy m x ok σ p ch := by
  unfold okByB at h
  unfold okBy
  split at h
  · exact hc _ _ _ h
  · exact hc _ _ _ h
  · exact hc _ _ _ h
  · split <;> simp_all

/-- Steps without access of thread `t` in a call, at most `f`. -/
def taus (m : Mach S P Ch O R) (x : Setup Ch R) (tau : Ch) (t : Nat) : Nat → MConf (S × Vars) (PC P) → History O R → MConf (S × Vars) (PC P) × History O R
  | 0, C, h => (C, h)
  | f + 1, C, h =>
    match (mach m x).step t C.s (C.pc t) (.inner tau) with
    | none => (C, h)
    | some (s', p', e) => taus m x tau t f ⟨s', upd C.pc t p'⟩ (h ++ e.toList)

/-- Runs a schedule; after each step, the thread executes what needs no access. -/
def drive (m : Mach S P Ch O R) (x : Setup Ch R) (okB : S → P → Ch → Bool) (tau : Ch) :
    MConf (S × Vars) (PC P) → History O R → List (Nat × Choice Ch) → Option (MConf (S × Vars) (PC P) × History O R)
  | C, h, [] => some (C, h)
  | C, h, (t, ch) :: l =>
    if okByB m x okB C.s (C.pc t) ch then
      match (mach m x).step t C.s (C.pc t) ch with
      | none => none
      | some (s', p', e) =>
        let y := taus m x tau t 100 ⟨s', upd C.pc t p'⟩ (h ++ e.toList)
        drive m x okB tau y.1 y.2 l
    else none

theorem taus_steps (ht : ∀ s p, ok s p tau) {t f : Nat} {s} {C : MConf (S × Vars) (PC P)} {h : History O R} (hx : Runs m x ok s h C) :
    Runs m x ok s (taus m x tau t f C h).2 (taus m x tau t f C h).1 := by
  induction f generalizing C h with
  | zero => exact hx
  | succ f ih =>
    unfold taus
    split
    · exact hx
    · rename_i hs
      refine ih (.step hx hs ?_)
      unfold okBy
      split
      · trivial
      · trivial
      · rename_i h2; cases h2; exact ht ..
      · trivial

theorem drive_steps (hc : ∀ s p ch, okB s p ch = true → ok s p ch) (ht : ∀ s p, ok s p tau) {s} {sched : List (Nat × Choice Ch)}
    {C C₁ : MConf (S × Vars) (PC P)} {h h' : History O R} (hx : Runs m x ok s h C) (hr : drive m x okB tau C h sched = some (C₁, h')) : Runs m x ok s h' C₁ := by
  induction sched generalizing C h with
  | nil => simp [drive] at hr; obtain ⟨rfl, rfl⟩ := hr; exact hx
  | cons a l ih =>
    obtain ⟨t, ch⟩ := a
    simp only [drive] at hr
    split at hr
    · rename_i hb
      split at hr
      · simp at hr
      · rename_i s' p' e hs
        exact ih (taus_steps ht (.step hx hs (okByB_spec hc hb))) hr
    · simp at hr

/-- Steps of the program by thread `t`. -/
def steps (t k : Nat) : List (Nat × Choice Ch) := List.replicate k (t, .go)

/-- A call, made by the program. -/
def made : List (Nat × Ch) → List (Nat × Choice Ch)
  | [] => []
  | (t, _) :: l => (t, .go) :: l.map fun y => (y.1, .inner y.2)

end Verif.Example.RaRun

namespace Verif.Stack.Code.RaExampleEx
open Lin Text TextEx Example RaEx
open Stack.WordEx (cRep)
open Example.RaRun (steps made)

/-- `push(v)` of thread `t` that finds no free node, reading messages number `i` of `pool_` and number `j` of `tos`. -/
def pushNew (t v i j : Nat) : Sched cRep := [(t, .call (.push false v)), (t, .read i)] ++ go t 2 ++ [(t, .read j)] ++ go t 2

/-- One producer, two consumers, two iterations. Consumer 1 does not see the first `push` and finds the stack empty; it loads `false` from `done` although `true` has been
stored, and again finds the stack empty; having loaded `true` it takes both elements. -/
def sched : List (Nat × Example.Choice (RCh cRep)) :=
  steps 0 2 ++ made (push 0 1 0 0) ++ steps 1 1 ++ made (popNone 1 0) ++ steps 0 2 ++ made (pushNew 0 2 1 1) ++
  steps 0 1 ++ steps 3 2 ++ [(1, .stale)] ++ made (popNone 1 0) ++ steps 1 1 ++ made (pop 1 2 1) ++ steps 1 1 ++ made (pop 1 3 2) ++ steps 1 1 ++ made (popNone 1 4) ++
  steps 1 1 ++ steps 2 1 ++ made (popNone 2 4) ++ steps 2 1 ++ steps 3 1

/-- Runs a schedule. -/
abbrev run (x : Setup (RCh cRep) (Ret Nat × View Stack.Loc)) (sched : List (Nat × Example.Choice (RCh cRep))) :=
  RaRun.drive (raMach (program cRep Nat)) x okB .tau (initial x (RaConf.initial cRep Nat 1).s) [] sched

def hist : History (Op Nat) (Ret Nat) :=
  [.inv 0 (.push false 1), .res 0 (.pushed true), .inv 1 (.pop false), .res 1 (.popped none), .inv 0 (.push false 2), .res 0 (.pushed true),
   .inv 1 (.pop false), .res 1 (.popped none), .inv 1 (.pop false), .res 1 (.popped (some 2)), .inv 1 (.pop false), .res 1 (.popped (some 1)),
   .inv 1 (.pop false), .res 1 (.popped none), .inv 2 (.pop false), .res 2 (.popped none)]

set_option maxRecDepth 20000 in
/-- C64: examples/stack.cpp to its end -/
theorem runs : ∃ h C, RaExampleRuns cRep 1 1 2 2 h C ∧ bare h = hist ∧ C.pc 3 = .at .print := by
  have h1 : (run (raExampleSetup cRep 1 2 2) sched).map (fun x => bare x.2) = some hist := rfl
  have h2 : (run (raExampleSetup cRep 1 2 2) sched).map (fun x => x.1.pc 3) = some (.at .print) := rfl
  simp only [Option.map_eq_some_iff] at h1
  obtain ⟨⟨C, h⟩, h3, h4⟩ := h1
  rw [h3] at h2
  exact ⟨h, C, RaRun.drive_steps (ok := raOk) (fun _ _ _ => RaEx.okB_spec) (fun _ _ => RaEx.tau_ok _ _) (.refl _) h3, h4, by simpa using h2⟩

/-- `main` prints that 2 objects were produced and consumed. -/
example : ∃ h C, RaExampleRuns cRep 1 1 2 2 h C ∧ bare h = hist ∧ C.s.2.producer_count = 2 ∧ C.s.2.consumer_count = 2 ∧ HoldsW cRep C.s.1.s [] := by
  obtain ⟨h, C, h1, h2, h3⟩ := runs
  obtain ⟨h4, h5, -, h6⟩ := stack_ra_example cRep_faithful (by decide) h1 (by decide) h3
  exact ⟨h, C, h1, h2, h4, h5, h6⟩

/-- The program with `while ( !done.load( memory_order_relaxed ) )` in line 37: one producer, one consumer, one iteration. -/
def relaxedSetup : Setup (RCh cRep) (Ret Nat × View Stack.Loc) := { raExampleSetup cRep 1 1 1 with see := [] }

/-- The consumer has loaded `true` and finds the stack empty. -/
def relaxedSched : List (Nat × Example.Choice (RCh cRep)) :=
  steps 0 2 ++ made (push 0 1 0 0) ++ steps 0 1 ++ steps 2 2 ++ steps 1 1 ++ made (popNone 1 0) ++ steps 1 1 ++ steps 2 1

set_option maxRecDepth 20000 in
/-- **C64 (what does not hold).** If the load of `done` is relaxed, `main` may print that one object was produced and none consumed. -/
theorem stack_ra_example_relaxed_done : ∃ h C, Example.Runs (raMach (program cRep Nat)) relaxedSetup raOk (RaConf.initial cRep Nat 1).s h C ∧
    C.pc 2 = .at .print ∧ C.s.2.producer_count = 1 ∧ C.s.2.consumer_count = 0 := by
  have h1 : (run relaxedSetup relaxedSched).map (fun x => x.1.pc 2) = some (.at .print) := rfl
  have h2 : (run relaxedSetup relaxedSched).map (fun x => (x.1.s.2.producer_count, x.1.s.2.consumer_count)) = some (1, 0) := rfl
  simp only [Option.map_eq_some_iff] at h1
  obtain ⟨⟨C, h⟩, h3, h4⟩ := h1
  rw [h3] at h2
  simp at h2
  exact ⟨h, C, RaRun.drive_steps (ok := raOk) (fun _ _ _ => RaEx.okB_spec) (fun _ _ => RaEx.tau_ok _ _) (.refl _) h3, h4, h2⟩

end Verif.Stack.Code.RaExampleEx

namespace Verif.Queue.Code.RaExampleEx
open Lin Text TextEx Example RaEx
open Stack.WordEx (cRep)
open Example.RaRun (steps made)

/-- One producer, two consumers, two iterations. Consumer 1 does not see the first `push` and finds the queue empty; it loads `false` from `done` although `true` has been
stored, and again finds the queue empty; having loaded `true` it takes both elements. -/
def sched : List (Nat × Example.Choice (RCh cRep)) :=
  steps 0 2 ++ made (push 0 1 2 0 0 0 0) ++ steps 1 1 ++ made (look 1 0 0 0) ++ steps 0 2 ++ made (push 0 2 1 1 0 1 1) ++
  steps 0 1 ++ steps 3 2 ++ [(1, .stale)] ++ made (look 1 0 0 0) ++ steps 1 1 ++ made (RaEx.pop 1 0 2 1 1) ++ steps 1 1 ++ made (RaEx.pop 1 1 2 2 2) ++ steps 1 1 ++ made (look 1 2 2 1) ++
  steps 1 1 ++ steps 2 1 ++ made (look 2 2 2 1) ++ steps 2 1 ++ steps 3 1

/-- Runs a schedule. -/
abbrev run (x : Setup (RCh cRep) (Ret Nat × View Queue.Loc)) (sched : List (Nat × Example.Choice (RCh cRep))) :=
  RaRun.drive (raMach true (program cRep Nat)) x okB .tau (initial x (RaConf.initial cRep Nat 1).s) [] sched

def hist : History (Op Nat) (Ret Nat) :=
  [.inv 0 (.push false 1), .res 0 (.pushed true), .inv 1 .pop, .res 1 (.popped none), .inv 0 (.push false 2), .res 0 (.pushed true),
   .inv 1 .pop, .res 1 (.popped none), .inv 1 .pop, .res 1 (.popped (some 1)), .inv 1 .pop, .res 1 (.popped (some 2)),
   .inv 1 .pop, .res 1 (.popped none), .inv 2 .pop, .res 2 (.popped none)]

set_option maxRecDepth 20000 in
/-- C64: examples/queue.cpp to its end -/
theorem runs : ∃ h C, RaExampleRuns cRep 1 1 2 2 h C ∧ bare h = hist ∧ C.pc 3 = .at .print := by
  have h1 : (run (raExampleSetup cRep 1 2 2) sched).map (fun x => bare x.2) = some hist := rfl
  have h2 : (run (raExampleSetup cRep 1 2 2) sched).map (fun x => x.1.pc 3) = some (.at .print) := rfl
  simp only [Option.map_eq_some_iff] at h1
  obtain ⟨⟨C, h⟩, h3, h4⟩ := h1
  rw [h3] at h2
  exact ⟨h, C, RaRun.drive_steps (ok := raOk) (fun _ _ _ => RaEx.okB_spec) (fun _ _ => RaEx.tau_ok _ _) (.refl _) h3, h4, by simpa using h2⟩

/-- `main` prints that 2 objects were produced and consumed. -/
example : ∃ h C, RaExampleRuns cRep 1 1 2 2 h C ∧ bare h = hist ∧ C.s.2.producer_count = 2 ∧ C.s.2.consumer_count = 2 ∧ HoldsW cRep C.s.1.s [] := by
  obtain ⟨h, C, h1, h2, h3⟩ := runs
  obtain ⟨h4, h5, -, h6⟩ := queue_ra_example cRep_faithful (by decide) h1 (by decide) h3
  exact ⟨h, C, h1, h2, h4, h5, h6⟩

/-- The program with `while ( !done.load( memory_order_relaxed ) )` in line 36: one producer, one consumer, one iteration. -/
def relaxedSetup : Setup (RCh cRep) (Ret Nat × View Queue.Loc) := { raExampleSetup cRep 1 1 1 with see := [] }

/-- The consumer has loaded `true` and finds the queue empty. -/
def relaxedSched : List (Nat × Example.Choice (RCh cRep)) :=
  steps 0 2 ++ made (push 0 1 2 0 0 0 0) ++ steps 0 1 ++ steps 2 2 ++ steps 1 1 ++ made (look 1 0 0 0) ++ steps 1 1 ++ steps 2 1

set_option maxRecDepth 20000 in
/-- **C64 (what does not hold).** If the load of `done` is relaxed, `main` may print that one object was produced and none consumed. -/
theorem queue_ra_example_relaxed_done : ∃ h C, Example.Runs (raMach true (program cRep Nat)) relaxedSetup raOk (RaConf.initial cRep Nat 1).s h C ∧
    C.pc 2 = .at .print ∧ C.s.2.producer_count = 1 ∧ C.s.2.consumer_count = 0 := by
  have h1 : (run relaxedSetup relaxedSched).map (fun x => x.1.pc 2) = some (.at .print) := rfl
  have h2 : (run relaxedSetup relaxedSched).map (fun x => (x.1.s.2.producer_count, x.1.s.2.consumer_count)) = some (1, 0) := rfl
  simp only [Option.map_eq_some_iff] at h1
  obtain ⟨⟨C, h⟩, h3, h4⟩ := h1
  rw [h3] at h2
  simp at h2
  exact ⟨h, C, RaRun.drive_steps (ok := raOk) (fun _ _ _ => RaEx.okB_spec) (fun _ _ => RaEx.tau_ok _ _) (.refl _) h3, h4, h2⟩

end Verif.Queue.Code.RaExampleEx
