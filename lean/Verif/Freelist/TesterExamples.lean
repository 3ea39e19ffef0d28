import Verif.UserRun
import Verif.Freelist.TesterProps
import Verif.Freelist.Examples
import Verif.Queue.TextExamples

/-!
# The stress test of the freelists: concrete executions, and what does not hold (C68)

No further code of /repo is modelled here.
-/

namespace Verif.Freelist.Tester.Ex
open Lin Text User Both
open Stack.WordEx (cRep)
open Freelist.Ex (cRep_faithful)
open User.Run (steps)

section
variable {S₁ P₁ C₁ O₁ R₁ S₂ P₂ C₂ O₂ R₂ G K : Type} (m₁ : Mach S₁ P₁ C₁ O₁ R₁) (m₂ : Mach S₂ P₂ C₂ O₂ R₂) (c : Script G K (C₁ ⊕ C₂) (R₁ ⊕ R₂)) (k₀ : K)
  (okB : S₁ × S₂ → Both.PC P₁ P₂ → C₁ ⊕ C₂ → Bool) (tau₁ : C₁) (tau₂ : C₂)

/-- Steps without access of thread `t` in a call, at most `f`. -/
def taus (t : Nat) : Nat → MConf ((S₁ × S₂) × G) (User.PC K (Both.PC P₁ P₂)) → History (O₁ ⊕ O₂) (R₁ ⊕ R₂) →
    MConf ((S₁ × S₂) × G) (User.PC K (Both.PC P₁ P₂)) × History (O₁ ⊕ O₂) (R₁ ⊕ R₂)
  | 0, C, h => (C, h)
  | f + 1, C, h =>
    match (mach (both m₁ m₂) c k₀).step t C.s (C.pc t) (.inner (.inl tau₁)) with
    | some (s', p', e) => taus t f ⟨s', upd C.pc t p'⟩ (h ++ e.toList)
    | none =>
      match (mach (both m₁ m₂) c k₀).step t C.s (C.pc t) (.inner (.inr tau₂)) with
      | some (s', p', e) => taus t f ⟨s', upd C.pc t p'⟩ (h ++ e.toList)
      | none => (C, h)

/-- Runs a schedule; after each step, the thread executes what needs no access. -/
def drive : MConf ((S₁ × S₂) × G) (User.PC K (Both.PC P₁ P₂)) → History (O₁ ⊕ O₂) (R₁ ⊕ R₂) → List (Nat × User.Choice (C₁ ⊕ C₂)) →
    Option (MConf ((S₁ × S₂) × G) (User.PC K (Both.PC P₁ P₂)) × History (O₁ ⊕ O₂) (R₁ ⊕ R₂))
  | C, h, [] => some (C, h)
  | C, h, (t, ch) :: l =>
    if User.Run.okByB (both m₁ m₂) c okB C.s (C.pc t) ch then
      match (mach (both m₁ m₂) c k₀).step t C.s (C.pc t) ch with
      | none => none
      | some (s', p', e) =>
        let y := taus m₁ m₂ c k₀ tau₁ tau₂ t 100 ⟨s', upd C.pc t p'⟩ (h ++ e.toList)
        drive y.1 y.2 l
    else none

variable {m₁ m₂ c k₀ okB tau₁ tau₂} {ok : S₁ × S₂ → Both.PC P₁ P₂ → C₁ ⊕ C₂ → Prop} {s : S₁ × S₂} {g : G} {start : Nat → K}

theorem taus_steps (ht : ∀ s p, ok s p (.inl tau₁)) (ht' : ∀ s p, ok s p (.inr tau₂)) {t f : Nat} {C : MConf ((S₁ × S₂) × G) (User.PC K (Both.PC P₁ P₂))} {h}
    (hx : User.Runs (both m₁ m₂) c k₀ ok s g start h C) :
    User.Runs (both m₁ m₂) c k₀ ok s g start (taus m₁ m₂ c k₀ tau₁ tau₂ t f C h).2 (taus m₁ m₂ c k₀ tau₁ tau₂ t f C h).1 := by
  induction f generalizing C h with
  | zero => exact hx
  | succ f ih =>
    unfold taus
    split
    · rename_i hs
      refine ih (.step hx hs ?_)
      unfold okBy
      split
      · rename_i h2; cases h2
      · rename_i h2; cases h2; exact ht ..
      · trivial
    · split
      · rename_i hs
        refine ih (.step hx hs ?_)
        unfold okBy
        split
        · rename_i h2; cases h2
        · rename_i h2; cases h2; exact ht' ..
        · trivial
      · exact hx

theorem drive_steps (hc : ∀ s p ch, okB s p ch = true → ok s p ch) (ht : ∀ s p, ok s p (.inl tau₁)) (ht' : ∀ s p, ok s p (.inr tau₂))
    {sched : List (Nat × User.Choice (C₁ ⊕ C₂))} {C C' : MConf ((S₁ × S₂) × G) (User.PC K (Both.PC P₁ P₂))} {h h'}
    (hx : User.Runs (both m₁ m₂) c k₀ ok s g start h C) (hr : drive m₁ m₂ c k₀ okB tau₁ tau₂ C h sched = some (C', h')) :
    User.Runs (both m₁ m₂) c k₀ ok s g start h' C' := by
  induction sched generalizing C h with
  | nil => simp [drive] at hr; obtain ⟨rfl, rfl⟩ := hr; exact hx
  | cons a l ih =>
    obtain ⟨t, ch⟩ := a
    simp only [drive] at hr
    split at hr
    · rename_i hb
      split at hr
      · simp at hr
      · rename_i s' p' e hs
        exact ih (taus_steps ht ht' (.step hx hs (User.Run.okByB_spec hc hb))) hr
    · simp at hr

end

abbrev Ch := TChoice (SChoice cRep.K (Op Unit) Unit) (Op Unit) ⊕ TChoice (SChoice cRep.K (Queue.Op Nat) Nat) (Queue.Op Nat)

/-- Thread `t` calls the freelist, with `k` accesses. -/
def list (t k : Nat) : List (Nat × User.Choice Ch) := (t, .go true) :: List.replicate k (t, .inner (.inl (.act .go)))

/-- Thread `t` calls the queue, with `k` accesses. -/
def queue (t k : Nat) : List (Nat × User.Choice Ch) := (t, .go true) :: List.replicate k (t, .inner (.inr (.act .go)))

/-- One allocator, one deallocator, two operations, one node. The allocator has to wait for the node. -/
def sched : List (Nat × User.Choice Ch) :=
  steps 0 1 ++ list 0 4 ++ steps 0 1 ++ queue 0 11 ++ steps 0 1 ++ list 0 1 ++ queue 1 10 ++ steps 1 1 ++ list 1 4 ++ [(1, .go false)] ++
  list 0 4 ++ steps 0 1 ++ queue 0 11 ++ steps 0 2 ++ queue 1 10 ++ steps 1 1 ++ list 1 4 ++ steps 2 2 ++ steps 1 1 ++ queue 1 4 ++ steps 1 1 ++ steps 2 1

abbrev setup : Setup := ⟨1, 1, 2, true⟩

abbrev PF := TPC (SMem cRep.K Unit) (Loc cRep.K Unit) (SChoice cRep.K (Op Unit) Unit) Ret
abbrev PQ := TPC (Queue.SSt cRep.K Nat) (Queue.Code.Loc cRep.K Nat) (SChoice cRep.K (Queue.Op Nat) Nat) (Queue.Ret Nat)

/-- What is assumed of the accesses, computed. -/
def okBothB (s : SMem cRep.K Unit × Queue.SSt cRep.K Nat) : Both.PC PF PQ → Ch → Bool
  | .idle, .inl ch => Program.okB (fun _ _ => true) s.1 (.idle : PF) ch
  | .idle, .inr ch => Program.okB (fun _ _ => true) s.2 (.idle : PQ) ch
  | .left p, .inl ch => Program.okB (fun _ _ => true) s.1 p ch
  | .right p, .inr ch => Program.okB (fun _ _ => true) s.2 p ch
  | _, _ => true

abbrev okEx := okBoth (program cRep Unit).mach (Queue.Code.program cRep Nat).mach (Program.ok fun _ _ => True) (Program.ok fun _ _ => True)

theorem okBothB_spec (s : SMem cRep.K Unit × Queue.SSt cRep.K Nat) (p : Both.PC PF PQ) (ch : Ch) (h : okBothB s p ch = true) : okEx s p ch := by
  cases p <;> cases ch <;> first | trivial | exact okB_spec (okc := fun _ _ => true) (fun _ _ _ => trivial) h

theorem okEx_left (s : SMem cRep.K Unit × Queue.SSt cRep.K Nat) (p : Both.PC PF PQ) : okEx s p (.inl .tau) := by
  cases p
  · exact tau_ok (O := Op Unit) (fun _ _ => True) s.1 (.idle : PF)
  · rename_i p; exact tau_ok (O := Op Unit) (fun _ _ => True) s.1 (p : PF)
  · trivial

theorem okEx_right (s : SMem cRep.K Unit × Queue.SSt cRep.K Nat) (p : Both.PC PF PQ) : okEx s p (.inr .tau) := by
  cases p
  · exact tau_ok (O := Queue.Op Nat) (fun _ _ => True) s.2 (.idle : PQ)
  · trivial
  · rename_i p; exact tau_ok (O := Queue.Op Nat) (fun _ _ => True) s.2 (p : PQ)

def hist : History (Op Unit ⊕ Queue.Op Nat) (Ret ⊕ Queue.Ret Nat) :=
  [.inv 0 (.inl (.construct true () false)), .res 0 (.inl (.node (some 0))), .inv 0 (.inr (.push false 0)), .res 0 (.inr (.pushed true)),
   .inv 0 (.inl (.construct true () false)), .res 0 (.inl (.node none)),
   .inv 1 (.inr .pop), .res 1 (.inr (.popped (some 0))), .inv 1 (.inl (.destruct 0)), .res 1 (.inl .done),
   .inv 0 (.inl (.construct true () false)), .res 0 (.inl (.node (some 0))), .inv 0 (.inr (.push false 0)), .res 0 (.inr (.pushed true)),
   .inv 1 (.inr .pop), .res 1 (.inr (.popped (some 0))), .inv 1 (.inl (.destruct 0)), .res 1 (.inl .done),
   .inv 1 (.inr .pop), .res 1 (.inr (.popped none))]

/-- The schedule, executed. -/
abbrev run (x : Setup) (l : List (Nat × User.Choice Ch)) :=
  drive (program cRep Unit).mach (Queue.Code.program cRep Nat).mach (script x .call .call) .absent okBothB .tau .tau
    ⟨((SMem.initial cRep 1, (Queue.SConf.initial cRep 2).s), Vars.init), fun t => .at (start x t)⟩ [] l

theorem shows {A B : Type} {x : Setup} (l : List (Nat × User.Choice Ch)) {f : _ → A} {q : TesterConf cRep cRep → B} {a : A} {b : B}
    (hr : (run x l).map (fun y => (f y.2, q y.1)) = some (a, b)) : ∃ h C, Runs cRep cRep 1 2 x h C ∧ f h = a ∧ q C = b := by
  simp only [Option.map_eq_some_iff, Prod.mk.injEq] at hr
  obtain ⟨⟨C, h⟩, h1, h2, h3⟩ := hr
  exact ⟨h, C, drive_steps okBothB_spec okEx_left okEx_right (.refl _) h1, h2, h3⟩

set_option maxRecDepth 40000 in
/-- C68: the test to its end; the allocator had to wait for the node. -/
theorem runs : ∃ h C, Runs cRep cRep 1 2 setup h C ∧ h = hist ∧ C.pc 2 = .at .finished := shows sched (f := id) rfl

/-- `freelist_tester_never_fails`, `freelist_tester_no_undefined_behaviour`, `freelist_tester_exclusive` and `freelist_tester_finished` apply to it. -/
example : ∃ C, Runs cRep cRep 1 2 setup hist C ∧ (∀ t, C.pc t ≠ .at .failed) ∧ (∀ t a, C.pc t ≠ .call a (.left .err) ∧ C.pc t ≠ .call a (.right .err)) ∧
    Disciplined (lefts hist) ∧ (owned (lefts hist)).Nodup ∧ C.s.2.working_set = [] ∧ Queue.HoldsW cRep C.s.1.2 [] ∧
    ∃ l, Linked cRep C.s.1.1 (cRep.K.ptr C.s.1.1.pool) l ∧ l.Perm (List.range C.s.1.1.nalloc) := by
  obtain ⟨h, C, hx, rfl, hm⟩ := runs
  obtain ⟨h1, h2, h3, h4, h5⟩ := freelist_tester_finished cRep_faithful cRep_faithful (by decide) (by decide) rfl (by decide) hx hm
  obtain ⟨h6, h7⟩ := freelist_tester_exclusive cRep_faithful cRep_faithful (by decide) (by decide) hx
  exact ⟨C, hx, freelist_tester_never_fails cRep_faithful cRep_faithful (by decide) (by decide) hx,
    freelist_tester_no_undefined_behaviour cRep_faithful cRep_faithful (by decide) (by decide) hx, h6, h7, h1, h3, h5⟩

/-- `freelist_tester_count`. -/
example : ∃ C, Runs cRep cRep 1 2 setup hist C ∧ (Queue.offered (rights hist)).length = 2 := by
  obtain ⟨h, C, hx, rfl, hm⟩ := runs
  exact ⟨C, hx, freelist_tester_count cRep_faithful cRep_faithful (by decide) (by decide) hx (.inr hm)⟩

/-- Both nodes popped are the nodes pushed: the node was used twice. -/
example : Queue.delivered (rights hist) = [0, 0] ∧ Queue.offered (rights hist) = [0, 0] := by decide

set_option maxRecDepth 40000 in
/-- In the middle of the test the node is in `working_set`, and in use. -/
example : ∃ h C, Runs cRep cRep 1 2 setup h C ∧ owned (lefts h) = [0] ∧ C.s.2.working_set = [0] :=
  shows (steps 0 1 ++ list 0 4 ++ steps 0 1) (f := fun h => owned (lefts h)) rfl

set_option maxRecDepth 40000 in
/-- `freelist_tester_finished` needs a deallocator: without one, the node is still in `working_set` when all threads are joined. -/
theorem freelist_tester_without_deallocator : ∃ h C, Runs cRep cRep 1 2 ⟨1, 0, 1, true⟩ h C ∧ owned (lefts h) = [0] ∧ (C.pc 1, C.s.2.working_set) = (.at .finished, [0]) :=
  shows (steps 0 1 ++ list 0 4 ++ steps 0 1 ++ queue 0 11 ++ steps 0 2 ++ steps 1 3) (f := fun h => owned (lefts h))
    (q := fun C => (C.pc 1, C.s.2.working_set)) rfl

end Verif.Freelist.Tester.Ex
