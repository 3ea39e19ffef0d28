import Verif.Calls
import Verif.Mach

/-!
# The example programs (examples/queue.cpp, examples/stack.cpp, examples/spsc_queue.cpp)

The three programs differ in the container and in the number of threads. Threads `0, 1, ..` execute `producer`, the next ones `consumer`, and one more executes
`main` after it has created the others. The container is any machine with calls `push` and `pop`; the program adds the variables `producer_count`, `consumer_count`
and `done` to its state. A history records the calls of the container.

Line numbers are those of examples/queue.cpp; examples/stack.cpp:14-69 and examples/spsc_queue.cpp:14-61 have the same text with other names.

Simplifications: `int` is unbounded (the programs count to 4 * 10^7). The counters are sequentially consistent; that they also order other accesses is not
used. A load of `done` may return `false` at any time (it may be out of date). What a load of `done` that returns `true`, and joining a thread, order before
what follows is expressed by steps of the container machine (`exit`, `join`, `publish`, `see`; none for a sequentially consistent machine). An exception
in a thread function ends the program (`terminated`).
-/

namespace Verif.Example
open Lin

/-- Where a thread is. -/
inductive At where
  /-- `producer`, line 25, `i != iterations` -/
  | forTest (i : Nat)
  /-- line 26, `int value = ++producer_count` -/
  | count (i : Nat)
  /-- line 27, `while ( !queue.push( value ) )` -/
  | push (i v : Nat)
  /-- `consumer`, line 36, `while ( !done )` -/
  | test
  /-- line 37 (`last = false`) and line 41 (`last = true`), `while ( queue.pop( value ) )` -/
  | pop (last : Bool)
  /-- line 38 and line 42, `++consumer_count` -/
  | counted (last : Bool)
  /-- line 43, the end of `consumer` -/
  | leave
  /-- the thread has ended -/
  | ended
  /-- `main`, line 61, `producer_threads.join_all()` -/
  | joinProducers
  /-- line 62, `done = true` -/
  | setDone
  /-- line 64, `consumer_threads.join_all()` -/
  | joinConsumers
  /-- line 66 -/
  | print
  /-- an exception has left the thread function -/
  | terminated
  /-- no such thread -/
  | absent

/-- Outside the container, or in a call made at `a`. -/
inductive PC (P : Type) where
  | at (a : At)
  | call (a : At) (p : P)

/-- Where a thread is, in a call or not. -/
def PC.here {P : Type} : PC P → At
  | .at a | .call a _ => a

/-- `producer_count` (line 14), `consumer_count` (15), `done` (32), and which threads have ended. -/
structure Vars where
  producer_count : Nat
  consumer_count : Nat
  done : Bool
  ended : Nat → Bool

/-- Resolution of nondeterminism: a step of the program; a load of `done` that is out of date; a step of the container. -/
inductive Choice (Ch : Type) where
  | go
  | stale
  | inner (ch : Ch)

/-- The constants of the program (lines 19-21) and how it uses the container: calls, meaning of the results of `push` and of `pop` (`none`: an exception), and the steps by which threads
synchronise: at the end of a producer, when `main` has joined the producers, when it stores `true` to `done`, when a consumer loads `true`. -/
structure Setup (Ch R : Type) where
  producers : Nat
  consumers : Nat
  iterations : Nat
  push : Nat → Ch
  pop : Ch
  pushed : R → Option Bool
  popped : R → Option Bool
  exit : List Ch := []
  join : List Ch := []
  publish : List Ch := []
  see : List Ch := []

variable {S P Ch O R : Type}

/-- Steps of the container machine by a thread that is in no call. -/
def quiet (m : Mach S P Ch O R) (t : Nat) : S → List Ch → Option S
  | s, [] => some s
  | s, ch :: l =>
    match m.step t s m.idle ch with
    | some (s', _, none) => quiet m t s' l
    | _ => none

/-- What follows a call (lines 27-29, 37-39, 41-43). -/
def after : At → Option Bool → At
  | _, none => .terminated
  | .push i v, some b => if b then .forTest (i + 1) else .push i v
  | .pop last, some b => if b then .counted last else if last then .leave else .test
  | _, _ => .terminated

/-- Meaning of the result of a call made at a place. -/
def Setup.result (x : Setup Ch R) : At → R → Option Bool
  | .push _ _ => x.pushed
  | _ => x.popped

/-- The program. -/
def mach (m : Mach S P Ch O R) (x : Setup Ch R) : Mach (S × Vars) (PC P) (Choice Ch) O R where
  step t σ
    | .at (.forTest i), .go =>
      if i = x.iterations then
        (quiet m t σ.1 x.exit).map fun s => ((s, { σ.2 with ended := upd σ.2.ended t true }), .at .ended, none)
      else some (σ, .at (.count i), none)
    | .at (.count i), .go =>
      some ((σ.1, { σ.2 with producer_count := σ.2.producer_count + 1 }), .at (.push i (σ.2.producer_count + 1)), none)
    | .at (.push i v), .go => (m.step t σ.1 m.idle (x.push v)).map fun y => ((y.1, σ.2), .call (.push i v) y.2.1, y.2.2)
    | .at .test, .go =>
      if σ.2.done then (quiet m t σ.1 x.see).map fun s => ((s, σ.2), .at (.pop true), none)
      else some (σ, .at (.pop false), none)
    | .at .test, .stale => some (σ, .at (.pop false), none)
    | .at (.pop last), .go => (m.step t σ.1 m.idle x.pop).map fun y => ((y.1, σ.2), .call (.pop last) y.2.1, y.2.2)
    | .at (.counted last), .go => some ((σ.1, { σ.2 with consumer_count := σ.2.consumer_count + 1 }), .at (.pop last), none)
    | .at .leave, .go => some ((σ.1, { σ.2 with ended := upd σ.2.ended t true }), .at .ended, none)
    | .at .joinProducers, .go =>
      if (List.range x.producers).all fun p => σ.2.ended p then
        (quiet m t σ.1 x.join).map fun s => ((s, σ.2), .at .setDone, none)
      else none
    | .at .setDone, .go => (quiet m t σ.1 x.publish).map fun s => ((s, { σ.2 with done := true }), .at .joinConsumers, none)
    | .at .joinConsumers, .go =>
      if (List.range x.consumers).all fun c => σ.2.ended (x.producers + c) then some (σ, .at .print, none) else none
    | .call a p, .inner ch =>
      match m.step t σ.1 p ch with
      | none => none
      | some (s', _, some (.res u r)) => some ((s', σ.2), .at (after a (x.result a r)), some (.res u r))
      | some (s', p', e) => some ((s', σ.2), .call a p', e)
    | _, _ => none
  idle := .at .absent
  ret _ := .at .absent

/-- The steps of the container satisfy `ok`. -/
def okBy (m : Mach S P Ch O R) (x : Setup Ch R) (ok : S → P → Ch → Prop) (σ : S × Vars) : PC P → Choice Ch → Prop
  | .at (.push _ v), .go => ok σ.1 m.idle (x.push v)
  | .at (.pop _), .go => ok σ.1 m.idle x.pop
  | .call _ p, .inner ch => ok σ.1 p ch
  | _, _ => True

/-- The beginning: the threads have been created (lines 55-59), the container is in state `s`. -/
def initial (x : Setup Ch R) (s : S) : MConf (S × Vars) (PC P) where
  s := (s, ⟨0, 0, false, fun _ => false⟩)
  pc t := .at (if t < x.producers then .forTest 0 else if t < x.producers + x.consumers then .test
    else if t = x.producers + x.consumers then .joinProducers else .absent)

/-- The thread that executes `main`. -/
abbrev Setup.main (x : Setup Ch R) : Nat := x.producers + x.consumers

/-- Executions of the program. -/
abbrev Runs (m : Mach S P Ch O R) (x : Setup Ch R) (ok : S → P → Ch → Prop) (s : S) (h : History O R) (C : MConf (S × Vars) (PC P)) : Prop :=
  MSteps (mach m x) (okBy m x ok) (initial x s) h C

/-! ### The container -/

/-- PC in the container. -/
def Mach.pcOf (m : Mach S P Ch O R) : PC P → P
  | .at _ => m.idle
  | .call _ p => p

/-- The configuration of the container. -/
def Mach.baseOf (m : Mach S P Ch O R) (C : MConf (S × Vars) (PC P)) : MConf S P := ⟨C.s.1, fun t => Mach.pcOf m (C.pc t)⟩

/-- The synchronisation steps. -/
def Setup.syncs (x : Setup Ch R) : List Ch := x.exit ++ x.join ++ x.publish ++ x.see

/-- What is assumed about the container machine. -/
structure Plays (m : Mach S P Ch O R) (x : Setup Ch R) (ok : S → P → Ch → Prop) : Prop where
  /-- the choices for calls make calls -/
  push : ∀ t s v s' p' e, m.step t s m.idle (x.push v) = some (s', p', e) → p' ≠ m.idle ∧ ∃ o, e = some (.inv t o)
  pop : ∀ t s s' p' e, m.step t s m.idle x.pop = some (s', p', e) → p' ≠ m.idle ∧ ∃ o, e = some (.inv t o)
  /-- a call ends by a response, and has no other event -/
  step : ∀ t s p ch s' p' e, p ≠ m.idle → m.step t s p ch = some (s', p', e) →
    (e = none ∧ p' ≠ m.idle) ∨ ∃ r, e = some (.res t r) ∧ p' = m.idle
  /-- synchronisation is no call -/
  sync : ∀ ch ∈ x.syncs, ∀ t s s' p' e, m.step t s m.idle ch = some (s', p', e) → e = none ∧ p' = m.idle
  allowed : ∀ ch ∈ x.syncs, ∀ s, ok s m.idle ch

/-- Steps of the program, as a relation. -/
inductive Trans (m : Mach S P Ch O R) (x : Setup Ch R) (t : Nat) (s : S) (g : Vars) :
    PC P → Choice Ch → S → Vars → PC P → Option (Event O R) → Prop where
  | exit {i s'} : i = x.iterations → quiet m t s x.exit = some s' →
      Trans m x t s g (.at (.forTest i)) .go s' { g with ended := upd g.ended t true } (.at .ended) none
  | more {i} : i ≠ x.iterations → Trans m x t s g (.at (.forTest i)) .go s g (.at (.count i)) none
  | count {i} : Trans m x t s g (.at (.count i)) .go s { g with producer_count := g.producer_count + 1 } (.at (.push i (g.producer_count + 1))) none
  | push {i v s' p' e} : m.step t s m.idle (x.push v) = some (s', p', e) →
      Trans m x t s g (.at (.push i v)) .go s' g (.call (.push i v) p') e
  | see {s'} : g.done = true → quiet m t s x.see = some s' → Trans m x t s g (.at .test) .go s' g (.at (.pop true)) none
  | test {ch} : Trans m x t s g (.at .test) ch s g (.at (.pop false)) none
  | pop {last s' p' e} : m.step t s m.idle x.pop = some (s', p', e) →
      Trans m x t s g (.at (.pop last)) .go s' g (.call (.pop last) p') e
  | counted {last} : Trans m x t s g (.at (.counted last)) .go s { g with consumer_count := g.consumer_count + 1 } (.at (.pop last)) none
  | leave : Trans m x t s g (.at .leave) .go s { g with ended := upd g.ended t true } (.at .ended) none
  | join {s'} : (∀ p < x.producers, g.ended p = true) → quiet m t s x.join = some s' →
      Trans m x t s g (.at .joinProducers) .go s' g (.at .setDone) none
  | publish {s'} : quiet m t s x.publish = some s' →
      Trans m x t s g (.at .setDone) .go s' { g with done := true } (.at .joinConsumers) none
  | joined : (∀ c < x.consumers, g.ended (x.producers + c) = true) → Trans m x t s g (.at .joinConsumers) .go s g (.at .print) none
  | inside {a p ch s' p' e} : m.step t s p ch = some (s', p', e) → (∀ u r, e ≠ some (.res u r)) →
      Trans m x t s g (.call a p) (.inner ch) s' g (.call a p') e
  | finish {a p ch s' p' u r} : m.step t s p ch = some (s', p', some (.res u r)) →
      Trans m x t s g (.call a p) (.inner ch) s' g (.at (after a (x.result a r))) (some (.res u r))

variable {m : Mach S P Ch O R} {x : Setup Ch R} {ok : S → P → Ch → Prop}

theorem trans_of_step {t : Nat} {σ σ' : S × Vars} {p p' ch e} (hs : (mach m x).step t σ p ch = some (σ', p', e)) :
    Trans m x t σ.1 σ.2 p ch σ'.1 σ'.2 p' e := by
  simp only [mach] at hs
  split at hs
  · split at hs
    · rename_i h1
      simp only [Option.map_eq_some_iff] at hs
      obtain ⟨s, h2, h3⟩ := hs
      cases h3
      exact .exit h1 h2
    · rename_i h1; cases hs; exact .more h1
  · cases hs; exact .count
  · simp only [Option.map_eq_some_iff] at hs
    obtain ⟨⟨a, b, c⟩, h2, h3⟩ := hs
    cases h3
    exact .push h2
  · split at hs
    · rename_i h1
      simp only [Option.map_eq_some_iff] at hs
      obtain ⟨s, h2, h3⟩ := hs
      cases h3
      exact .see h1 h2
    · cases hs; exact .test
  · cases hs; exact .test
  · simp only [Option.map_eq_some_iff] at hs
    obtain ⟨⟨a, b, c⟩, h2, h3⟩ := hs
    cases h3
    exact .pop h2
  · cases hs; exact .counted
  · cases hs; exact .leave
  · split at hs
    · rename_i h1
      simp only [Option.map_eq_some_iff] at hs
      obtain ⟨s, h2, h3⟩ := hs
      cases h3
      exact .join (by simpa using h1) h2
    · cases hs
  · simp only [Option.map_eq_some_iff] at hs
    obtain ⟨s, h2, h3⟩ := hs
    cases h3
    exact .publish h2
  · split at hs
    · rename_i h1; cases hs; exact .joined (by simpa using h1)
    · cases hs
  · split at hs
    · cases hs
    · rename_i h1; cases hs; exact .finish h1
    · rename_i h1 h2
      cases hs
      exact .inside h2 (fun u r he => by subst he; simp_all)
  · cases hs

theorem quiet_steps (hpl : Plays m x ok) {t : Nat} {C : MConf S P} (hC : C.pc t = m.idle) {l : List Ch} (hl : ∀ ch ∈ l, ch ∈ x.syncs) {s'}
    (hq : quiet m t C.s l = some s') : MSteps m ok C [] ⟨s', C.pc⟩ := by
  induction l generalizing C with
  | nil => cases hq; exact .refl _
  | cons ch l ih =>
    simp only [quiet] at hq
    split at hq
    · rename_i s₁ p₁ h1
      obtain ⟨_, rfl⟩ := hpl.sync ch (hl _ (by simp)) _ _ _ _ _ h1
      have h2 : MSteps m ok C ([] ++ (none : Option (Event O R)).toList) ⟨s₁, upd C.pc t m.idle⟩ :=
        .step (.refl _) (by rw [hC]; exact h1) (by rw [hC]; exact hpl.allowed ch (hl _ (by simp)) _)
      rw [← hC, upd_eq_self C.pc t] at h2
      exact h2.trans (ih hC (fun ch h => hl ch (by simp [h])) hq)
    · cases hq

theorem base_upd (C : MConf (S × Vars) (PC P)) (t : Nat) (σ' : S × Vars) (p' : PC P) :
    Mach.baseOf m ⟨σ', upd C.pc t p'⟩ = ⟨σ'.1, upd (fun u => Mach.pcOf m (C.pc u)) t (Mach.pcOf m p')⟩ := by
  simp only [Mach.baseOf]
  congr 1
  funext u
  simp only [upd_apply]
  split <;> rfl

/-- A step of the program is a sequence of steps of the container. -/
theorem base_step (hpl : Plays m x ok) {C : MConf (S × Vars) (PC P)} (hb : ∀ t a p, C.pc t = .call a p → p ≠ m.idle) {t ch σ' p' e}
    (hs : (mach m x).step t C.s (C.pc t) ch = some (σ', p', e)) (hok : okBy m x ok C.s (C.pc t) ch) :
    MSteps m ok (Mach.baseOf m C) e.toList (Mach.baseOf m ⟨σ', upd C.pc t p'⟩) := by
  have hs' := trans_of_step hs
  rw [base_upd]
  generalize hp : C.pc t = p at hs' hok
  have h1 : (Mach.baseOf m C).pc t = Mach.pcOf m p := by simp only [Mach.baseOf]; rw [hp]
  have hidle : Mach.pcOf m p = m.idle → ∀ {l : List Ch}, (∀ ch ∈ l, ch ∈ x.syncs) → ∀ {s'}, quiet m t C.s.1 l = some s' →
      MSteps m ok (Mach.baseOf m C) [] ⟨s', upd (fun u => Mach.pcOf m (C.pc u)) t m.idle⟩ := by
    intro h2 l hl s' hq
    have := quiet_steps hpl (C := Mach.baseOf m C) (h1.trans h2) hl hq
    have h3 : upd (fun u => Mach.pcOf m (C.pc u)) t m.idle = (Mach.baseOf m C).pc := by
      rw [← h2, ← h1]; exact upd_eq_self _ _
    rw [h3]; exact this
  have hnone : Mach.pcOf m p = m.idle → MSteps m ok (Mach.baseOf m C) [] ⟨C.s.1, upd (fun u => Mach.pcOf m (C.pc u)) t m.idle⟩ :=
    fun h2 => hidle h2 (l := []) nofun rfl
  have hstep : ∀ {ch s' p' e}, m.step t C.s.1 (Mach.pcOf m p) ch = some (s', p', e) → ok C.s.1 (Mach.pcOf m p) ch →
      MSteps m ok (Mach.baseOf m C) e.toList ⟨s', upd (fun u => Mach.pcOf m (C.pc u)) t p'⟩ := by
    intro ch s' p' e h2 h3
    have := MSteps.step (MSteps.refl (m := m) (ok := ok) (Mach.baseOf m C)) (t := t) (by rw [h1]; exact h2) (by rw [h1]; exact h3)
    rw [List.nil_append] at this
    exact this
  obtain ⟨s₂, g₂⟩ := σ'
  simp only at hs'
  cases hs' with
  | exit _ h => exact hidle rfl (fun c hc => by simp [Setup.syncs, hc]) h
  | see _ h => exact hidle rfl (fun c hc => by simp [Setup.syncs, hc]) h
  | join _ h => exact hidle rfl (fun c hc => by simp [Setup.syncs, hc]) h
  | publish h => exact hidle rfl (fun c hc => by simp [Setup.syncs, hc]) h
  | more | count | test | counted | leave | joined => exact hnone rfl
  | push h => exact hstep h hok
  | pop h => exact hstep h hok
  | inside h => exact hstep h hok
  | @finish a p ch s' p' u r h =>
    have h2 := hpl.step _ _ _ _ _ _ _ (hb t _ _ hp) h
    have h3 : p' = m.idle := by
      rcases h2 with ⟨h, _⟩ | ⟨_, _, h⟩
      · cases h
      · exact h
    subst h3
    exact hstep h hok

theorem call_busy (hpl : Plays m x ok) {s h} {C : MConf (S × Vars) (PC P)} (hx : Runs m x ok s h C) :
    ∀ t a p, C.pc t = .call a p → p ≠ m.idle := by
  induction hx with
  | refl => intro t a p h; simp [initial] at h
  | @step h C t ch σ' p' e hx hs hok ih =>
    intro u a q hu
    by_cases hut : u = t
    · subst hut
      simp only [upd_self] at hu
      subst hu
      have hs' := trans_of_step hs
      generalize hp : C.pc u = p at hs' hok
      obtain ⟨s₂, g₂⟩ := σ'
      simp only at hs'
      cases hs' with
      | push h => exact (hpl.push _ _ _ _ _ _ h).1
      | pop h => exact (hpl.pop _ _ _ _ _ h).1
      | inside h hn =>
        rcases hpl.step _ _ _ _ _ _ _ (ih u _ _ hp) h with h2 | ⟨r, h2, _⟩
        · exact h2.2
        · exact absurd h2 (hn _ _)
    · simp only [upd_ne _ _ _ hut] at hu
      exact ih u a q hu

/-- **The calls of the container form an execution of the container.** -/
theorem Runs.base (hpl : Plays m x ok) {s h} {C : MConf (S × Vars) (PC P)} (hx : Runs m x ok s h C) :
    MSteps m ok ⟨s, fun _ => m.idle⟩ h (Mach.baseOf m C) := by
  induction hx with
  | refl => exact .refl _
  | @step h C t ch σ' p' e hx hs hok ih => exact ih.trans (base_step hpl (call_busy hpl hx) hs hok)

end Verif.Example
