import Verif.Forever
import Verif.Stack.TextExamples

/-!
# The stack: executions without end (C57)

No code of /repo is modelled here.
-/

namespace Verif.Stack
open Lin

/-- All but at most `T` of the calls have returned. -/
theorem stack_calls_le {α : Type} {cfg : Cfg} {T k f : Nat} {C₀ D : Conf α} {h}
    (hx : Counted (mach α cfg) (okFresh cfg) spurious T C₀ h D k f) : callCosts (fun _ => 1) h ≤ returns h + T := by
  refine hx.calls_le (lawful cfg) (fun t s p ch s' p' e hs he hpp => ?_) (fun t s p ch s' p' o hs => ?_)
  · exact not_idle_of_trans (trans_of_tstep hs) he hpp
  · have ht := trans_of_tstep hs
    exact not_idle_of_trans ht (by simp) (by
      cases ht with
      | call ho => exact fun h => by subst h; cases o <;> simp [start] at ho <;> (try split at ho) <;> simp at ho)

section
variable {α : Type} {cfg : Cfg} {n T : Nat} {C : Nat → Conf α} {t : Nat → Nat} {ch : Nat → Choice (Op α)}
  {e : Nat → Option (Event (Op α) (Ret α))}

/-- **C57 (lock-freedom).** In every execution without end, of finitely many threads, in which compare-exchanges fail spuriously only finitely
often, infinitely many calls return. -/
theorem stack_always_returns (hx : Forever (mach α cfg) (okFresh cfg) T C t ch e) (h0 : C 0 = Conf.initial n)
    (hspur : ∃ N, ∀ i, N ≤ i → spurious ((C i).pc (t i)) (ch i) = false) (i : Nat) : ∃ j, i ≤ j ∧ ∃ u r, e j = some (.res u r) :=
  hx.returns (A := 1) (c := 1) (cost := charge T)
    (fun hc => by rw [h0] at hc; have := stack_lock_free hc; omega) stack_calls_le hspur i
end

namespace Code
open Text

section
variable {α : Type} {R : Rep} {n T : Nat} {C : Nat → TConf R α} {t : Nat → Nat} {ch : Nat → TChoice (SChoice R.K (Op α) α) (Op α)}
  {e : Nat → Option (Event (Op α) (Ret α))}

/-- **C57 (lock-freedom of the program text).** -/
theorem stack_text_always_returns (hf : R.Faithful) (hn : n ≤ R.limit)
    (hx : Forever (program R α).mach (Program.ok fun _ o => ∀ b, o ≠ .pushRange b []) T C t ch e)
    (h0 : C 0 = ⟨(SConf.initial R n).s, fun _ => .idle⟩)
    (hspur : ∃ N, ∀ i, N ≤ i → Text.spurious isSpur ((C i).pc (t i)) (ch i) = false) (i : Nat) :
    ∃ j, i ≤ j ∧ ∃ u r, e j = some (.res u r) :=
  hx.returns (A := 62) (c := 2) (cost := charge T)
    (fun hc => by rw [h0] at hc; exact stack_text_lock_free hf hn hc) (fun hc => Program.calls_le _ hc) hspur i
end

namespace TextEx
open WordEx

/-! ### Concrete cases -/

abbrev TCh := TChoice (SChoice cRep.K (Op Nat) Nat) (Op Nat)

/-- State and thread 0 after steps of thread 0. -/
def solo (l : List TCh) : SSt cRep.K Nat × TPC (SSt cRep.K Nat) (Loc cRep.K Nat) (SChoice cRep.K (Op Nat) Nat) (Ret Nat) :=
  let D := (program cRep Nat).mach.after (Program.okB okc) (start cRep 1) (l.map (0, ·))
  (D.s, D.pc 0)

/-- The event of step `i`. -/
def event (l : List TCh) (i : Nat) : Option (Event (Op Nat) (Ret Nat)) :=
  ((program cRep Nat).mach.step 0 (solo (l.take i)).1 (solo (l.take i)).2 (l.getD i .tau)).bind (·.2.2)

/-- A call of `empty`. -/
def emptyCall : List TCh := [.call .empty, .tau, .tau, .tau, .act .go, .tau, .tau, .tau, .tau, .tau, .tau]

/-- A call of `push` up to the compare-exchange of `allocate`, and once around its loop. -/
def pushLoops : List TCh :=
  [.call (.push true 5)] ++ List.replicate 7 .tau ++ [.act .go] ++ List.replicate 5 .tau ++ [.act .go] ++ List.replicate 3 .tau ++
    [.act .spur] ++ List.replicate 7 .tau ++ [.act .go] ++ List.replicate 3 .tau

set_option maxRecDepth 8000 in
theorem emptyCall_ok (i : Nat) (hi : i < 11) : Program.okB okc (solo (emptyCall.take i)).1 (solo (emptyCall.take i)).2 (emptyCall.getD i .tau) = true :=
  match i, hi with
  | 0, _ | 1, _ | 2, _ | 3, _ | 4, _ | 5, _ | 6, _ | 7, _ | 8, _ | 9, _ | 10, _ => rfl

set_option maxRecDepth 8000 in
theorem emptyCall_steps (i : Nat) (hi : i < 11) : (program cRep Nat).mach.step 0 (solo (emptyCall.take i)).1 (solo (emptyCall.take i)).2 (emptyCall.getD i .tau) =
    some ((solo (emptyCall.take (i + 1))).1, (solo (emptyCall.take (i + 1))).2, event emptyCall i) :=
  match i, hi with
  | 0, _ | 1, _ | 2, _ | 3, _ | 4, _ | 5, _ | 6, _ | 7, _ | 8, _ | 9, _ | 10, _ => rfl

set_option maxRecDepth 8000 in
theorem pushLoops_ok (i : Nat) (hi : i < 30) : Program.okB okc (solo (pushLoops.take i)).1 (solo (pushLoops.take i)).2 (pushLoops.getD i .tau) = true :=
  match i, hi with
  | 0, _ | 1, _ | 2, _ | 3, _ | 4, _ | 5, _ | 6, _ | 7, _ | 8, _ | 9, _ | 10, _ | 11, _ | 12, _ | 13, _ | 14, _ | 15, _ | 16, _ | 17, _ | 18, _ | 19, _ | 20, _ | 21, _ | 22, _ | 23, _ | 24, _ | 25, _ | 26, _ | 27, _ | 28, _ | 29, _ => rfl
  | _ + 30, h => absurd h (by omega)

set_option maxRecDepth 8000 in
theorem pushLoops_steps (i : Nat) (hi : i < 30) : (program cRep Nat).mach.step 0 (solo (pushLoops.take i)).1 (solo (pushLoops.take i)).2 (pushLoops.getD i .tau) =
    some ((solo (pushLoops.take (i + 1))).1, (solo (pushLoops.take (i + 1))).2, event pushLoops i) :=
  match i, hi with
  | 0, _ | 1, _ | 2, _ | 3, _ | 4, _ | 5, _ | 6, _ | 7, _ | 8, _ | 9, _ | 10, _ | 11, _ | 12, _ | 13, _ | 14, _ | 15, _ | 16, _ | 17, _ | 18, _ | 19, _ | 20, _ | 21, _ | 22, _ | 23, _ | 24, _ | 25, _ | 26, _ | 27, _ | 28, _ | 29, _ => rfl
  | _ + 30, h => absurd h (by omega)

theorem quiet (q : TPC (SSt cRep.K Nat) (Loc cRep.K Nat) (SChoice cRep.K (Op Nat) Nat) (Ret Nat)) (i : Nat) (hi : i < 11) :
    Text.spurious isSpur q (emptyCall.getD i .tau) = false :=
  match i, hi with
  | 0, _ | 1, _ | 2, _ | 3, _ | 4, _ | 5, _ | 6, _ | 7, _ | 8, _ | 9, _ | 10, _ => rfl

set_option maxRecDepth 8000 in
theorem no_response (i : Nat) (hi : i < 30) (u : Nat) (r : Ret Nat) : event pushLoops i ≠ some (.res u r) :=
  match i, hi with
  | 0, _ | 1, _ | 2, _ | 3, _ | 4, _ | 5, _ | 6, _ | 7, _ | 8, _ | 9, _ | 10, _ | 11, _ | 12, _ | 13, _ | 14, _ | 15, _ | 16, _ | 17, _ | 18, _ | 19, _ | 20, _ | 21, _ | 22, _ | 23, _ | 24, _ | 25, _ | 26, _ | 27, _ | 28, _ | 29, _ => nofun
  | _ + 30, h => absurd h (by omega)

set_option maxRecDepth 8000 in
/-- C57: a thread that calls `empty` over and over -/
theorem empty_forever : ∃ C t ch e, Forever (program cRep Nat).mach (Program.ok fun _ o => ∀ b, o ≠ .pushRange b []) 1 C t ch e ∧ C 0 = start cRep 1 ∧
    ∀ j, Text.spurious isSpur ((C j).pc (t j)) (ch j) = false := by
  obtain ⟨C, t, ch, e, h1, h2, h3⟩ := forever_lasso (m := (program cRep Nat).mach) (ok := Program.ok fun _ o => ∀ b, o ≠ .pushRange b [])
    (T := 1) (C₀ := start cRep 1) (t := 0) (n := 11) (l := 0) (by decide) (by decide) (fun i => solo (emptyCall.take i))
    (fun i => emptyCall.getD i .tau) (event emptyCall) rfl rfl (fun i hi => okB_spec okc_spec (emptyCall_ok i hi)) emptyCall_steps
  exact ⟨C, t, ch, e, h1, h2, fun j => by obtain ⟨i, hi, -, h4, -⟩ := h3 j; rw [h4]; exact quiet _ i hi⟩

example : ∃ e : Nat → Option (Event (Op Nat) (Ret Nat)), ∀ i, ∃ j, i ≤ j ∧ ∃ u r, e j = some (.res u r) := by
  obtain ⟨C, t, ch, e, h1, h2, h3⟩ := empty_forever
  exact ⟨e, stack_text_always_returns cRep_faithful (n := 1) (by decide) h1 h2 ⟨0, fun i _ => h3 i⟩⟩

set_option maxRecDepth 8000 in
/-- **C57 (the assumption is needed).** A compare-exchange that fails spuriously forever: there is an execution without end in which no call
returns. -/
theorem stack_spurious_forever : ∃ C t ch e, Forever (program cRep Nat).mach (Program.ok fun _ o => ∀ b, o ≠ .pushRange b []) 1 C t ch e ∧
    C 0 = ⟨(SConf.initial cRep 1).s, fun _ => .idle⟩ ∧ ∀ j u r, e j ≠ some (.res u r) := by
  obtain ⟨C, t, ch, e, h1, h2, h3⟩ := forever_lasso (m := (program cRep Nat).mach) (ok := Program.ok fun _ o => ∀ b, o ≠ .pushRange b [])
    (T := 1) (C₀ := start cRep 1) (t := 0) (n := 30) (l := 18) (by decide) (by decide) (fun i => solo (pushLoops.take i))
    (fun i => pushLoops.getD i .tau) (event pushLoops) rfl rfl (fun i hi => okB_spec okc_spec (pushLoops_ok i hi)) pushLoops_steps
  exact ⟨C, t, ch, e, h1, h2, fun j u r => by obtain ⟨i, hi, -, -, h4⟩ := h3 j; rw [h4]; exact no_response i hi u r⟩

end TextEx
end Code
end Verif.Stack
