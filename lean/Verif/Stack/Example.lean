import Verif.ExampleEnd
import Verif.Stack.TextProps

/-!
# examples/stack.cpp on the program text of the stack

`producer_thread_count` (stack.cpp:20), `consumer_thread_count` (:21) and `iterations` (:19) are parameters.
-/

namespace Verif.Stack.Code
open Lin Text Example

variable {R : Rep}

/-- The result of `push`. -/
def pushAnswer : Ret Nat → Option Bool
  | .pushed ok => some ok
  | _ => none

/-- The result of `pop`. -/
def popAnswer : Ret Nat → Option Bool
  | .popped v => some v.isSome
  | _ => none

/-- How stack.cpp uses the stack: `stack.push( value )` (:27), `stack.pop( value )` (:38, :42). -/
def exampleSetup (R : Rep) (producers consumers iterations : Nat) : Setup (TChoice (SChoice R.K (Op Nat) Nat) (Op Nat)) (Ret Nat) where
  producers := producers
  consumers := consumers
  iterations := iterations
  push v := .call (.push false v)
  pop := .call (.pop false)
  pushed := pushAnswer
  popped := popAnswer

/-- Executions of stack.cpp, with a stack constructed with `n` nodes (:17: `n = 128`). -/
abbrev ExampleRuns (R : Rep) (n producers consumers iterations : Nat) (h : History (Op Nat) (Ret Nat))
    (C : MConf (SSt R.K Nat × Vars) (Example.PC (TPC (SSt R.K Nat) (Loc R.K Nat) (SChoice R.K (Op Nat) Nat) (Ret Nat)))) : Prop :=
  Runs (program R Nat).mach (exampleSetup R producers consumers iterations) (Program.ok fun _ o => ∀ b, o ≠ .pushRange b []) (SConf.initial R n).s h C

theorem example_plays (R : Rep) (np nc k : Nat) :
    Plays (program R Nat).mach (exampleSetup R np nc k) (Program.ok fun _ o => ∀ b, o ≠ .pushRange b []) :=
  text_plays _ (push := fun v => .push false v) (pop := .pop false) (fun _ => rfl) rfl (by simp [Setup.syncs, exampleSetup])

theorem example_reads (R : Rep) (np nc k : Nat) :
    Reads (program R Nat).mach (exampleSetup R np nc k) id id (fun v => .push false v) (.pop false) pushAnswer popAnswer pushedBy handedBy where
  pushes t s v s' p' e h := by
    simp only [exampleSetup, Program.mach, Option.map_eq_some_iff] at h
    obtain ⟨y, _, h⟩ := h
    cases h
    exact ⟨_, rfl, rfl⟩
  pops t s s' p' e h := by
    simp only [exampleSetup, Program.mach, Option.map_eq_some_iff] at h
    obtain ⟨y, _, h⟩ := h
    cases h
    exact ⟨_, rfl, rfl⟩
  pushed _ := rfl
  popped _ := rfl
  put_push v r := by
    cases r with
    | pushed ok => cases ok <;> simp [pushedBy, pushAnswer]
    | _ => simp [pushedBy, pushAnswer]
  put_pop r := by cases r <;> rfl
  get_push v r := by cases r <;> rfl
  get_pop r := by
    cases r with
    | popped x => cases x <;> simp [handedBy, popAnswer]
    | _ => simp [handedBy, popAnswer]
  ne v := by simp

/-- All calls have returned, a `pop` found the container empty, and the return of every `push` happens before it. -/
theorem example_drained {fixed : Bool} {hb : Nat → Nat → Prop} {h : History (Op Nat) (Ret Nat)} {L} (hl : HbLinearization (spec Nat fixed) hb h L)
    (hops : ∀ (i t : Nat) (o : Op Nat), h[i]? = some (.inv t o) → (∃ v, o = .push false v) ∨ o = .pop false)
    (hall : ∀ (i t : Nat) (o : Op Nat), h[i]? = some (.inv t o) → ∃ j r, Returned h i j r) {i j t : Nat}
    (hi : h[i]? = some (.inv t (.pop false))) (hr : Returned h i j (.popped none))
    (hlate : ∀ (k u v : Nat), h[k]? = some (.inv u (.push false v)) → ∃ j r, Returned h k j r ∧ hb j i) : (delivered h).Perm (accepted h) := by
  refine HbLinearization.drained (adds := fun o => ∃ v, o = .push false v) hl
    (S := spec Nat fixed) (fun σ => (σ : List Nat)) rfl ?_ hall ?_ hi hr ?_ ?_
  · intro σ i o r σ' hm hs
    obtain ⟨u, hu⟩ := hl.invoked _ hm
    rcases hops _ _ _ hu with ⟨v, h⟩ | h
    · simp only at h
      subst h
      cases r with
      | pushed ok =>
        rcases hs with ⟨rfl, rfl⟩ | ⟨rfl, _, rfl⟩
        · exact List.Perm.refl _
        · exact List.Perm.refl _
      | threw => cases hs; exact List.Perm.refl _
      | _ => exact hs.elim
    · simp only at h
      subst h
      cases r with
      | popped x =>
        cases x with
        | none => obtain ⟨rfl, rfl⟩ := hs; exact List.Perm.refl _
        | some v => cases hs; exact List.Perm.refl _
      | _ => exact hs.elim
  · intro i o r hm ho
    obtain ⟨u, hu⟩ := hl.invoked _ hm
    rcases hops _ _ _ hu with h | h
    · exact absurd h ho
    · simp only at h
      subst h
      cases r <;> rfl
  · rintro σ σ' hs
    exact hs.2
  · rintro k' u o hk ⟨v, rfl⟩
    exact hlate k' u v hk

variable {n np nc k : Nat} {h : History (Op Nat) (Ret Nat)}
  {C : MConf (SSt R.K Nat × Vars) (Example.PC (TPC (SSt R.K Nat) (Loc R.K Nat) (SChoice R.K (Op Nat) Nat) (Ret Nat)))}

/-- The calls of the program are an execution of the stack. -/
theorem example_exec (hx : ExampleRuns R n np nc k h C) : TextExec R n h (Mach.baseOf (program R Nat).mach C) :=
  Runs.base (example_plays R np nc k) hx

/-- **C61 (stack.cpp: no undefined behaviour).** -/
theorem stack_example_no_undefined_behaviour (hf : R.Faithful) (hn : n ≤ R.limit) (hx : ExampleRuns R n np nc k h C) (t : Nat) (a : Example.At) :
    C.pc t ≠ .call a .err := by
  intro he
  have := stack_text_no_undefined_behaviour hf hn (example_exec hx) t
  simp only [Mach.baseOf, Mach.pcOf, he] at this
  exact this rfl

/-- **C61 (stack.cpp).** When `main` prints, there being at least one consumer, it prints that `np * k` objects were produced and as many consumed; the values popped
are the numbers from 1 to `np * k`, each once; the stack is empty. -/
theorem stack_example (hf : R.Faithful) (hn : n ≤ R.limit) (hx : ExampleRuns R n np nc k h C) (hc : 0 < nc) (hp : C.pc (np + nc) = .at .print) :
    C.s.2.producer_count = np * k ∧ C.s.2.consumer_count = np * k ∧ (delivered h).Perm ((List.range (np * k)).map (· + 1)) ∧ HoldsW R C.s.1 [] := by
  have hi := Runs.inv (example_plays R np nc k) (example_reads R np nc k) hx
  rw [map_strip_id] at hi
  have hte := example_exec hx
  obtain ⟨h1, h2, h3, h4⟩ := hi.at_print hp
  obtain ⟨i, j, t, r, h5, h6, h7, h8⟩ := hi.last_pop hp hc
  have hr : r = .popped none := by
    cases r with
    | popped x => cases x <;> simp [popAnswer] at h7 ⊢
    | _ => cases h7
  have hops : ∀ (i t : Nat) (o : Op Nat), h[i]? = some (.inv t o) → (∃ v, o = .push false v) ∨ o = .pop false := by
    intro i t o ho
    rcases hi.ops i t o ho with ⟨_, h⟩ | ⟨_, _, h⟩
    · exact .inl h
    · exact .inr h
  have h9 : (delivered h).Perm (accepted h) := by
    obtain ⟨L, hl⟩ := stack_text_linearizable hf hn hte
    subst hr
    exact example_drained (hl.hb (hb := fun j i => j < i) fun _ _ h => h) hops h4 h5 h6 h8
  have h10 : (delivered h).Perm ((List.range (np * k)).map (· + 1)) := h9.trans h2
  have hlen : C.s.2.consumer_count = np * k := by
    rw [h3]
    have := h10.length_eq
    simpa [allPut, delivered] using this
  refine ⟨h1, hlen, h10, ?_⟩
  obtain ⟨vs, hv, hcons⟩ := stack_text_conservation hf hn hte (fun t => by
    obtain ⟨a, ha, _⟩ := hi.all_at hp t
    simp only [Mach.baseOf, ha]; rfl) (by
    intro t rev k' hm
    obtain ⟨i, hi'⟩ := List.getElem?_of_mem hm
    rcases hops _ _ _ hi' with ⟨_, h⟩ | h <;> cases h)
  have : vs = [] := by
    have := (hcons.trans h9.symm).length_eq
    simp at this
    exact this
  rw [this] at hv
  exact hv

end Verif.Stack.Code
