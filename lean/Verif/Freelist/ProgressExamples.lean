import Verif.Freelist.Progress
import Verif.Freelist.Examples
import Verif.After

/-!
# The freelists on their own: progress in concrete executions (C70)

No further code of /repo is modelled here.
-/

namespace Verif.Freelist.Ex
open Lin Text
open Stack.WordEx (cRep addr_fits addr_nonnull nodeAt_addr)

/-- C70: the bound, for the execution `cEnd` -/
example : ∃ T k f, Counted (program cRep Nat).mach (Program.ok fun _ _ => True) (Text.spurious isSpur) T (start cRep 2) hist cEnd k f ∧
    k ≤ 42 * ((2 * T + 6) * (returns hist + T) + 2 * f) := by
  obtain ⟨T, k, f, hx⟩ := cEnd_exec.threads (Text.spurious isSpur)
  exact ⟨T, k, f, hx, freelist_lock_free hx⟩

/-- Thread 0 in the middle of `construct`. -/
abbrev middle : TConf cRep Nat := (program cRep Nat).after okc (start cRep 2) (calls 0 (.construct true 5 false) 1)

theorem middle_exec : Exec cRep 2 [.inv 0 (.construct true 5 false)] middle := after_steps (fun _ _ _ => trivial) rfl

/-- C70: it can make a step -/
example : ∃ ch y, (ch = .tau ∨ ch = .act .go) ∧ (program cRep Nat).mach.step 0 middle.s (middle.pc 0) ch = some y := by
  refine freelist_enabled cRep_faithful (by decide) middle_exec (disciplinedB_spec rfl) ?_ (.inr ?_)
  · intro h
    have := congrArg (fun p => p matches .idle) h
    revert this
    decide
  · decide

abbrev TCh := TChoice (SChoice cRep.K (Op Nat) Nat) (Op Nat)

/-- State and thread 0 after steps of thread 0. -/
def solo (n : Nat) (l : List TCh) : SMem cRep.K Nat × TPC (SMem cRep.K Nat) (Loc cRep.K Nat) (SChoice cRep.K (Op Nat) Nat) Ret :=
  let D := (program cRep Nat).mach.after (Program.okB okc) (start cRep n) (l.map (0, ·))
  (D.s, D.pc 0)

/-- The event of step `i`. -/
def event (n : Nat) (l : List TCh) (i : Nat) : Option (Event (Op Nat) Ret) :=
  ((program cRep Nat).mach.step 0 (solo n (l.take i)).1 (solo n (l.take i)).2 (l.getD i .tau)).bind (·.2.2)

/-- A call of `construct` that finds no node and returns null. -/
def nullCall : List TCh := .call (.construct true 5 false) :: List.replicate 5 .tau ++ .act .go :: List.replicate 15 .tau

/-- A call of `construct` up to the first spurious failure, and once around the loop. -/
def loops : List TCh :=
  .call (.construct true 5 false) :: List.replicate 5 .tau ++ .act .go :: List.replicate 5 .tau ++ .act .go :: List.replicate 3 .tau ++
    .act .spur :: List.replicate 7 .tau ++ .act .go :: List.replicate 3 .tau ++ [.act .spur]

theorem solo_ok (n : Nat) (l : List TCh) (i : Nat) (h : (List.range l.length).all (fun i => Program.okB okc (solo n (l.take i)).1 (solo n (l.take i)).2
    (l.getD i .tau)) = true) (hi : i < l.length) : Program.ok (fun _ _ => True) (solo n (l.take i)).1 (solo n (l.take i)).2 (l.getD i .tau) :=
  okB_spec (fun _ _ _ => trivial) (List.all_eq_true.1 h i (List.mem_range.2 hi))

set_option maxRecDepth 8000 in
theorem nullCall_steps (i : Nat) (hi : i < 22) : (program cRep Nat).mach.step 0 (solo 0 (nullCall.take i)).1 (solo 0 (nullCall.take i)).2 (nullCall.getD i .tau) =
    some ((solo 0 (nullCall.take (i + 1))).1, (solo 0 (nullCall.take (i + 1))).2, event 0 nullCall i) :=
  match i, hi with
  | 0, _ | 1, _ | 2, _ | 3, _ | 4, _ | 5, _ | 6, _ | 7, _ | 8, _ | 9, _ | 10, _ | 11, _ | 12, _ | 13, _ | 14, _ | 15, _ | 16, _ | 17, _ | 18, _ | 19, _ | 20, _ | 21, _ => rfl
  | _ + 22, h => absurd h (by omega)

set_option maxRecDepth 8000 in
theorem loops_steps (i : Nat) (hi : i < 29) : (program cRep Nat).mach.step 0 (solo 1 (loops.take i)).1 (solo 1 (loops.take i)).2 (loops.getD i .tau) =
    some ((solo 1 (loops.take (i + 1))).1, (solo 1 (loops.take (i + 1))).2, event 1 loops i) :=
  match i, hi with
  | 0, _ | 1, _ | 2, _ | 3, _ | 4, _ | 5, _ | 6, _ | 7, _ | 8, _ | 9, _ | 10, _ | 11, _ | 12, _ | 13, _ | 14, _ | 15, _ | 16, _ | 17, _ | 18, _ | 19, _ | 20, _ | 21, _ | 22, _ | 23, _ | 24, _ | 25, _ | 26, _ | 27, _ | 28, _ => rfl
  | _ + 29, h => absurd h (by omega)

theorem quiet (q : TPC (SMem cRep.K Nat) (Loc cRep.K Nat) (SChoice cRep.K (Op Nat) Nat) Ret) (i : Nat) (hi : i < 22) :
    Text.spurious isSpur q (nullCall.getD i .tau) = false :=
  match i, hi with
  | 0, _ | 1, _ | 2, _ | 3, _ | 4, _ | 5, _ | 6, _ | 7, _ | 8, _ | 9, _ | 10, _ | 11, _ | 12, _ | 13, _ | 14, _ | 15, _ | 16, _ | 17, _ | 18, _ | 19, _ | 20, _ | 21, _ => rfl
  | _ + 22, h => absurd h (by omega)

set_option maxRecDepth 8000 in
theorem no_response (i : Nat) (hi : i < 29) (u : Nat) (r : Ret) : event 1 loops i ≠ some (.res u r) :=
  match i, hi with
  | 0, _ | 1, _ | 2, _ | 3, _ | 4, _ | 5, _ | 6, _ | 7, _ | 8, _ | 9, _ | 10, _ | 11, _ | 12, _ | 13, _ | 14, _ | 15, _ | 16, _ | 17, _ | 18, _ | 19, _ | 20, _ | 21, _ | 22, _ | 23, _ | 24, _ | 25, _ | 26, _ | 27, _ | 28, _ => nofun
  | _ + 29, h => absurd h (by omega)

set_option maxRecDepth 8000 in
/-- C70: a thread that calls `construct` over and over -/
theorem null_forever : ∃ C t ch e, Forever (program cRep Nat).mach (Program.ok fun _ _ => True) 1 C t ch e ∧ C 0 = start cRep 0 ∧
    ∀ j, Text.spurious isSpur ((C j).pc (t j)) (ch j) = false := by
  obtain ⟨C, t, ch, e, h1, h2, h3⟩ := forever_lasso (m := (program cRep Nat).mach) (ok := Program.ok fun _ _ => True)
    (T := 1) (C₀ := start cRep 0) (t := 0) (n := 22) (l := 0) (by decide) (by decide) (fun i => solo 0 (nullCall.take i))
    (fun i => nullCall.getD i .tau) (event 0 nullCall) rfl rfl (fun i hi => solo_ok 0 nullCall i rfl hi) nullCall_steps
  exact ⟨C, t, ch, e, h1, h2, fun j => by obtain ⟨i, hi, -, h4, -⟩ := h3 j; rw [h4]; exact quiet _ i hi⟩

example : ∃ e : Nat → Option (Event (Op Nat) Ret), ∀ i, ∃ j, i ≤ j ∧ ∃ u r, e j = some (.res u r) := by
  obtain ⟨C, t, ch, e, h1, h2, h3⟩ := null_forever
  exact ⟨e, freelist_always_returns (n := 0) h1 h2 ⟨0, fun i _ => h3 i⟩⟩

set_option maxRecDepth 8000 in
/-- **C70 (the assumption is needed).** A compare-exchange that fails spuriously forever: there is an execution without end in which no call
returns. -/
theorem freelist_spurious_forever : ∃ C t ch e, Forever (program cRep Nat).mach (Program.ok fun _ _ => True) 1 C t ch e ∧
    C 0 = ⟨SMem.initial cRep 1, fun _ => .idle⟩ ∧ ∀ j u r, e j ≠ some (.res u r) := by
  obtain ⟨C, t, ch, e, h1, h2, h3⟩ := forever_lasso (m := (program cRep Nat).mach) (ok := Program.ok fun _ _ => True)
    (T := 1) (C₀ := start cRep 1) (t := 0) (n := 29) (l := 17) (by decide) (by decide) (fun i => solo 1 (loops.take i))
    (fun i => loops.getD i .tau) (event 1 loops) rfl rfl (fun i hi => solo_ok 1 loops i rfl hi) loops_steps
  exact ⟨C, t, ch, e, h1, h2, fun j u r => by obtain ⟨i, hi, -, -, h4⟩ := h3 j; rw [h4]; exact no_response i hi u r⟩

end Verif.Freelist.Ex
