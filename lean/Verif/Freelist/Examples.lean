import Verif.TextRun
import Verif.Freelist.Props
import Verif.Stack.WordExamples

/-!
# The freelists on their own: concrete executions (C67)

No further code of /repo is modelled here.
-/

namespace Verif.Freelist.Ex
open Lin Text
open Stack.WordEx (cRep addr_fits addr_nonnull nodeAt_addr)

theorem cRep_faithful : cRep.Faithful := compressedRep_faithful addr_fits addr_nonnull nodeAt_addr

abbrev start (R : Rep) (n : Nat) : TConf R Nat := ⟨SMem.initial R n, fun _ => .idle⟩

def okc {K : Words} (_ : SMem K Nat) (_ : Op Nat) : Bool := true

section
variable {K : Words}

/-- Thread `t` makes `k` accesses. -/
def acts (t k : Nat) : List (Nat × TChoice (SChoice K (Op Nat) Nat) (Op Nat)) := List.replicate k (t, .act .go)

/-- Thread `t` calls `o` and makes `k` accesses. -/
def calls (t : Nat) (o : Op Nat) (k : Nat) : List (Nat × TChoice (SChoice K (Op Nat) Nat) (Op Nat)) := (t, .call o) :: acts t k

/-- Two nodes. Thread 0 is overtaken by thread 1 and takes the other node; thread 2 gets null, and a node after thread 1 has given one back. -/
def sched : List (Nat × TChoice (SChoice K (Op Nat) Nat) (Op Nat)) :=
  calls 0 (.construct true 5 false) 1 ++ calls 1 (.construct true 6 false) 4 ++ acts 0 5 ++ calls 2 (.construct true 7 false) 1 ++
    calls 1 (.destruct 1) 4 ++ calls 2 (.construct true 8 false) 4

end

/-- Its history. -/
def hist : History (Op Nat) Ret :=
  [.inv 0 (.construct true 5 false), .inv 1 (.construct true 6 false), .res 1 (.node (some 1)), .res 0 (.node (some 0)),
   .inv 2 (.construct true 7 false), .res 2 (.node none), .inv 1 (.destruct 1), .res 1 .done,
   .inv 2 (.construct true 8 false), .res 2 (.node (some 1))]

abbrev cEnd : TConf cRep Nat := (program cRep Nat).after okc (start cRep 2) sched

set_option maxRecDepth 4000 in
theorem cEnd_exec : Exec cRep 2 hist cEnd := after_steps (fun _ _ _ => trivial) rfl

set_option maxRecDepth 4000 in
/-- C67: also on the freelist of fixed size -/
theorem index_exec : Exec (indexRep 2) 2 hist ((program (indexRep 2) Nat).after okc (start (indexRep 2) 2) sched) :=
  after_steps (fun _ _ _ => trivial) rfl

/-- The users give back only what they have, checked. -/
def disciplinedB : List Nat → History (Op Nat) Ret → Bool
  | _, [] => true
  | l, e :: h =>
    (match e with
      | .inv _ (.destruct n) => decide (n ∈ l)
      | _ => true) && disciplinedB (ownedStep l e) h

theorem disciplinedB_spec {h : History (Op Nat) Ret} (hb : disciplinedB [] h = true) : Disciplined h := by
  suffices ∀ (h₁ : History (Op Nat) Ret) (l : List Nat) t n h₂, disciplinedB l (h₁ ++ .inv t (.destruct n) :: h₂) = true → n ∈ h₁.foldl ownedStep l by
    rintro h₁ t n h₂ rfl
    exact this h₁ [] t n h₂ hb
  intro h₁
  induction h₁ with
  | nil =>
    intro l t n h₂ h
    simp [disciplinedB] at h
    exact h.1
  | cons e h₁ ih =>
    intro l t n h₂ h
    have h : (_ && disciplinedB (ownedStep l e) (h₁ ++ .inv t (.destruct n) :: h₂)) = true := h
    rw [Bool.and_eq_true] at h
    exact ih _ t n h₂ h.2

theorem hist_disciplined : Disciplined hist := disciplinedB_spec rfl

/-- C67: linearizable -/
example : Linearizable (spec Nat false 2) hist := freelist_linearizable cRep_faithful (by decide) cEnd_exec hist_disciplined

example : Linearizable (spec Nat true 2) hist := freelist_linearizable (indexRep_faithful (by decide)) (by decide) index_exec hist_disciplined

example (t : Nat) : cEnd.pc t ≠ .err := freelist_no_undefined_behaviour cRep_faithful (by decide) cEnd_exec hist_disciplined t

/-- C67: node 1 is returned a second time when nobody has it -/
example : 1 ∉ owned (hist.take 9) :=
  freelist_exclusive cRep_faithful (by decide) cEnd_exec hist_disciplined (h₁ := hist.take 9) (h₂ := []) (t := 2) rfl

example : owned hist = [1, 0] := rfl

/-- C67: node 1 holds 8, node 0 holds 5 -/
example : cEnd.s.data 1 = some 8 :=
  freelist_value cRep_faithful (by decide) cEnd_exec hist_disciplined ⟨hist.take 8, 2, true, false, [], [], rfl, by simp, by simp⟩

example : cEnd.s.data 0 = some 5 :=
  freelist_value cRep_faithful (by decide) cEnd_exec hist_disciplined
    ⟨[], 0, true, false, (hist.drop 1).take 2, hist.drop 4, rfl, by simp [hist, Event.tid], by simp [hist]⟩

set_option maxRecDepth 4000 in
theorem cEnd_idle (t : Nat) : cEnd.pc t = .idle := by
  match t with
  | 0 | 1 | 2 => rfl
  | _ + 3 => rfl

/-- C67: the free list is empty, and the users have both nodes -/
example : ∃ F, Linked cRep cEnd.s (cRep.K.ptr cEnd.s.pool) F ∧ (F ++ owned hist).Perm (List.range cEnd.s.nalloc) :=
  freelist_conservation cRep_faithful (by decide) cEnd_exec hist_disciplined cEnd_idle (by simp [hist])

example : cEnd.s.nalloc = 2 := freelist_bounded cRep_faithful (by decide) cEnd_exec hist_disciplined (.inr (by simp [hist]))

/-- C67: a constructor that throws; the node is in use for ever, so the next call gets null -/
def lostHist : History (Op Nat) Ret :=
  [.inv 0 (.construct true 5 true), .res 0 .threw, .inv 0 (.construct true 6 false), .res 0 (.node none)]

set_option maxRecDepth 4000 in
theorem lost_exec : Exec cRep 1 lostHist
    ((program cRep Nat).after okc (start cRep 1) (calls 0 (.construct true 5 true) 4 ++ calls 0 (.construct true 6 false) 1)) :=
  after_steps (fun _ _ _ => trivial) rfl

example : Linearizable (spec Nat false 1) lostHist := freelist_linearizable cRep_faithful (by decide) lost_exec (disciplinedB_spec rfl)

/-- C67: a run of the specification in which `construct` returns null -/
theorem null_run : Run (spec Nat true 1) (spec Nat true 1).init
    [(0, .construct true 5 false, .node (some 0)), (1, .construct true 6 false, .node none)] (⟨[], [0]⟩ : Pool) :=
  .cons (.got (.reuse rfl)) (.cons (.null rfl rfl) (.nil _))

example : ∃ σ₁ : Pool, Run (spec Nat true 1) (spec Nat true 1).init [(0, .construct true 5 false, .node (some 0))] σ₁ ∧ σ₁.used.Perm (List.range 1) :=
  freelist_null (L₂ := []) null_run (.inl rfl)

/-- C67: without discipline: a node given back twice -/
def twice : History (Op Nat) Ret :=
  [.inv 0 (.construct true 5 false), .res 0 (.node (some 0)), .inv 0 (.destruct 0), .res 0 .done, .inv 0 (.destruct 0)]

theorem not_disciplined : ¬Disciplined twice := by
  intro h
  have := h (twice.take 4) 0 0 [] rfl
  simp [owned, twice, ownedStep] at this

abbrev twiceEnd : TConf cRep Nat :=
  (program cRep Nat).after okc (start cRep 1) (calls 0 (.construct true 5 false) 4 ++ calls 0 (.destruct 0) 4 ++ calls 0 (.destruct 0) 1)

set_option maxRecDepth 4000 in
theorem twice_exec : Exec cRep 1 twice twiceEnd := after_steps (fun _ _ _ => trivial) rfl

set_option maxRecDepth 4000 in
/-- C67: is undefined behaviour, so the hypothesis cannot be left out -/
theorem freelist_discipline_needed : twiceEnd.pc 0 = .err := rfl

end Verif.Freelist.Ex
