import Verif.StressStuck
import Verif.Stack.Stress

/-!
# examples/stack.cpp and the stress test of the stack: no deadlock (C71)

No further code of /repo is modelled here.
-/

namespace Verif.Stack.Code
open Lin Text

variable {R : Rep} {n np nc k : Nat} {bd : Bool} {h : History (Op Nat) (Ret Nat)}

section
variable {C : MConf (SSt R.K Nat × Example.Vars) (Example.PC (TPC (SSt R.K Nat) (Loc R.K Nat) (SChoice R.K (Op Nat) Nat) (Ret Nat)))}

/-- **C71 (stack.cpp never gets stuck).** Until `main` has joined all threads, or an exception ends the program, some thread can make a step, as long
as the allocator has memory. -/
theorem stack_example_never_stuck (hf : R.Faithful) (hn : n ≤ R.limit) (hx : ExampleRuns R n np nc k h C)
    (hroom : R.fixed = true ∨ C.s.1.mem.nalloc < R.limit) (ht : ∀ u < np + nc, C.pc u ≠ .at .terminated) (hp : C.pc (np + nc) ≠ .at .print) :
    ∃ u ≤ np + nc, (Example.mach (program R Nat).mach (exampleSetup R np nc k)).CanStep C u := by
  have hi := Example.Runs.inv (example_plays R np nc k) (example_reads R np nc k) hx
  refine Example.never_stuck hi hx ⟨fun t _ v => ⟨_, rfl⟩, fun t _ _ => ⟨_, rfl⟩, fun t a p hpc => ?_, fun t => ⟨⟨_, rfl⟩, ⟨_, rfl⟩, ⟨_, rfl⟩, _, rfl⟩⟩ ht hp
  obtain ⟨ch, y, -, h1⟩ := stack_text_enabled hf hn (example_exec hx) (t := t)
    (by simp only [Example.Mach.baseOf, hpc, Example.Mach.pcOf]; exact (hi.busy t a p hpc).1) hroom
  simp only [Example.Mach.baseOf, hpc, Example.Mach.pcOf] at h1
  exact ⟨ch, y, h1⟩
end

section
variable {nw nr : Nat} {C : MConf (SSt R.K Nat × Stress.Vars) (User.PC Stress.At (TPC (SSt R.K Nat) (Loc R.K Nat) (SChoice R.K (Op Nat) Nat) (Ret Nat)))}

/-- **C71 (the stress test of the stack never gets stuck).** With at least one reader: until the checks have passed, or an exception ends the program, some
thread can make a step, as long as the allocator has memory. -/
theorem stack_stress_never_stuck (hf : R.Faithful) (hn : n ≤ R.limit) (hr : 0 < nr) (hx : StressRuns R n bd nw nr k h C)
    (hroom : R.fixed = true ∨ C.s.1.mem.nalloc < R.limit) (ht : ∀ u < nw + nr, ∀ i, C.pc u ≠ .at (.threw i)) (hp : C.pc (nw + nr) ≠ .at .passed) :
    ∃ u ≤ nw + nr, (User.mach (program R Nat).mach (Stress.script (stressSetup R bd nw nr k)) .absent).CanStep C u := by
  have hi := Stress.Runs.inv (stress_plays R bd nw nr k) (stress_reads R bd nw nr k) (stress_law R.fixed bd) (stress_lawful hf hn) hx
  have htd := User.Runs.tidy (sr := id) (stress_plays R bd nw nr k) (stress_reads R bd nw nr k).user hx
  refine Stress.never_stuck hi.1.role hx ⟨fun t _ v => ⟨_, rfl⟩, fun t _ _ => ⟨_, rfl⟩, fun t a p hpc => ?_, fun t => ⟨_, rfl⟩⟩ ht hp
    (stack_stress_never_fails hf hn hr hx _)
  obtain ⟨ch, y, -, h1⟩ := stack_text_enabled hf hn (stress_exec hx) (t := t)
    (by simp only [User.baseOf, hpc, User.pcOf]; exact (htd.busy t a p hpc).1) hroom
  simp only [User.baseOf, hpc, User.pcOf] at h1
  exact ⟨ch, y, h1⟩
end

end Verif.Stack.Code
