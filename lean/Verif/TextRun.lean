import Verif.After
import Verif.Alone
import Verif.Text

/-!
# Executing structured programs (used by the examples)

No code of /repo is modelled here.
-/

namespace Verif.Text
open Lin

variable {S L Ch O R : Type}

/-- Steps without access of thread `t`, at most `f`. -/
def Program.tauRun (P : Program S L Ch O R) (t : Nat) : Nat → MConf S (TPC S L Ch R) → History O R → MConf S (TPC S L Ch R) × History O R
  | 0, C, h => (C, h)
  | f + 1, C, h =>
    match P.mach.step t C.s (C.pc t) .tau with
    | none => (C, h)
    | some (s', p', e) => P.tauRun t f ⟨s', upd C.pc t p'⟩ (h ++ e.toList)

/-- `Program.ok`, computed. -/
def Program.okB (okc : S → O → Bool) (s : S) : TPC S L Ch R → TChoice Ch O → Bool
  | .idle, .call o => okc s o
  | .run l (.stm (.acc a) :: _), .act ch => a.ok s l ch
  | _, _ => true

/-- Runs a schedule of calls and accesses; after each, the thread executes what needs no access. -/
def Program.drive (P : Program S L Ch O R) (okc : S → O → Bool) : MConf S (TPC S L Ch R) → History O R → List (Nat × TChoice Ch O) →
    Option (MConf S (TPC S L Ch R) × History O R)
  | C, h, [] => some (C, h)
  | C, h, (t, ch) :: l =>
    if Program.okB okc C.s (C.pc t) ch then
      match P.mach.step t C.s (C.pc t) ch with
      | none => none
      | some (s', p', e) =>
        let x := P.tauRun t 100 ⟨s', upd C.pc t p'⟩ (h ++ e.toList)
        P.drive okc x.1 x.2 l
    else none

variable {P : Program S L Ch O R} {okCall : S → O → Prop} {okc : S → O → Bool}

theorem tau_ok (okCall : S → O → Prop) (s : S) (p : TPC S L Ch R) : Program.ok okCall s p (.tau : TChoice Ch O) := by
  unfold Program.ok
  split <;> simp_all

theorem tauRun_steps {t f : Nat} {C₀ C : MConf S (TPC S L Ch R)} {h : History O R} (hx : MSteps P.mach (Program.ok okCall) C₀ h C) :
    MSteps P.mach (Program.ok okCall) C₀ (P.tauRun t f C h).2 (P.tauRun t f C h).1 := by
  induction f generalizing C h with
  | zero => exact hx
  | succ f ih =>
    unfold Program.tauRun
    split
    · exact hx
    · rename_i hs
      exact ih (.step hx hs (tau_ok ..))

theorem okB_spec (hc : ∀ s o, okc s o = true → okCall s o) {s : S} {p : TPC S L Ch R} {ch : TChoice Ch O} (h : Program.okB okc s p ch = true) :
    Program.ok okCall s p ch := by
  unfold Program.okB at h
  unfold Program.ok
  split at h <;> simp_all

theorem drive_steps (hc : ∀ s o, okc s o = true → okCall s o) {sched : List (Nat × TChoice Ch O)} {C₀ C C₁ : MConf S (TPC S L Ch R)}
    {h h' : History O R} (hx : MSteps P.mach (Program.ok okCall) C₀ h C) (hr : P.drive okc C h sched = some (C₁, h')) :
    MSteps P.mach (Program.ok okCall) C₀ h' C₁ := by
  induction sched generalizing C h with
  | nil => simp [Program.drive] at hr; obtain ⟨rfl, rfl⟩ := hr; exact hx
  | cons a l ih =>
    obtain ⟨t, ch⟩ := a
    simp only [Program.drive] at hr
    split at hr
    · rename_i hb
      split at hr
      · simp at hr
      · rename_i s' p' e hs
        exact ih (tauRun_steps (.step hx hs (okB_spec hc hb))) hr
    · simp at hr

/-- Final configuration of a schedule. -/
def Program.after (P : Program S L Ch O R) (okc : S → O → Bool) (C : MConf S (TPC S L Ch R)) (sched : List (Nat × TChoice Ch O)) :
    MConf S (TPC S L Ch R) :=
  match P.drive okc C [] sched with
  | some (C', _) => C'
  | none => C

theorem after_steps (hc : ∀ s o, okc s o = true → okCall s o) {C : MConf S (TPC S L Ch R)} {sched : List (Nat × TChoice Ch O)} {h : History O R}
    (ht : (P.drive okc C [] sched).map (·.2) = some h) : MSteps P.mach (Program.ok okCall) C h (P.after okc C sched) := by
  simp only [Option.map_eq_some_iff] at ht
  obtain ⟨⟨C', h'⟩, h1, rfl⟩ := ht
  have : P.after okc C sched = C' := by simp only [Program.after, h1]
  rw [this]
  exact drive_steps hc (.refl _) h1

/-- Steps without access of a thread that is alone, at most `f`; with their number. -/
def Program.tauAlone (P : Program S L Ch O R) (t : Nat) : Nat → Nat × S × TPC S L Ch R × History O R → Nat × S × TPC S L Ch R × History O R
  | 0, x => x
  | f + 1, (k, s, q, h) =>
    match P.mach.step t s q .tau with
    | none => (k, s, q, h)
    | some (s', q', e) => P.tauAlone t f (k + 1, s', q', h ++ e.toList)

/-- Runs a schedule of calls and accesses of a thread that is alone; after each, it executes what needs no access, at most `f` steps. -/
def Program.driveAlone (P : Program S L Ch O R) (okc : S → O → Bool) (f t : Nat) : Nat × S × TPC S L Ch R × History O R → List (TChoice Ch O) →
    Option (Nat × S × TPC S L Ch R × History O R)
  | x, [] => some x
  | (k, s, q, h), ch :: l =>
    if Program.okB okc s q ch then
      match P.mach.step t s q ch with
      | none => none
      | some (s', q', e) => P.driveAlone okc f t (P.tauAlone t f (k + 1, s', q', h ++ e.toList)) l
    else none

theorem tauAlone_alone {t f : Nat} {s₀ : S} {q₀ : TPC S L Ch R} {x : Nat × S × TPC S L Ch R × History O R}
    (hx : Alone P.mach (Program.ok okCall) t x.1 s₀ q₀ x.2.2.2 x.2.1 x.2.2.1) :
    Alone P.mach (Program.ok okCall) t (P.tauAlone t f x).1 s₀ q₀ (P.tauAlone t f x).2.2.2 (P.tauAlone t f x).2.1 (P.tauAlone t f x).2.2.1 := by
  induction f generalizing x with
  | zero => exact hx
  | succ f ih =>
    obtain ⟨k, s, q, h⟩ := x
    unfold Program.tauAlone
    split
    · exact hx
    · rename_i hs
      exact ih (hx.snoc hs (tau_ok ..))

theorem driveAlone_alone (hc : ∀ s o, okc s o = true → okCall s o) {sched : List (TChoice Ch O)} {f t : Nat} {s₀ : S} {q₀ : TPC S L Ch R}
    {x y : Nat × S × TPC S L Ch R × History O R} (hx : Alone P.mach (Program.ok okCall) t x.1 s₀ q₀ x.2.2.2 x.2.1 x.2.2.1)
    (hr : P.driveAlone okc f t x sched = some y) : Alone P.mach (Program.ok okCall) t y.1 s₀ q₀ y.2.2.2 y.2.1 y.2.2.1 := by
  induction sched generalizing x with
  | nil => simp [Program.driveAlone] at hr; subst hr; exact hx
  | cons ch l ih =>
    obtain ⟨k, s, q, h⟩ := x
    simp only [Program.driveAlone] at hr
    split at hr
    · rename_i hb
      split at hr
      · simp at hr
      · rename_i s' p' e hs
        exact ih (tauAlone_alone (hx.snoc hs (okB_spec hc hb))) hr
    · simp at hr

/-- A thread alone, from a state on. -/
def Program.alone (P : Program S L Ch O R) (okc : S → O → Bool) (t : Nat) (s : S) (q : TPC S L Ch R) (sched : List (TChoice Ch O))
    (f : Nat := 100) :
    Nat × S × TPC S L Ch R × History O R :=
  (P.driveAlone okc f t (0, s, q, []) sched).getD (0, s, q, [])

theorem alone_run (hc : ∀ s o, okc s o = true → okCall s o) {f t k : Nat} {s : S} {q q' : TPC S L Ch R} {sched : List (TChoice Ch O)} {h : History O R}
    (ht : (P.driveAlone okc f t (0, s, q, []) sched).map (fun x => (x.1, x.2.2)) = some (k, q', h)) :
    Alone P.mach (Program.ok okCall) t k s q h (P.alone okc t s q sched f).2.1 q' := by
  simp only [Option.map_eq_some_iff] at ht
  obtain ⟨⟨k', s', p', h'⟩, h1, h2⟩ := ht
  have : P.alone okc t s q sched f = (k', s', p', h') := by simp only [Program.alone, h1]; rfl
  rw [this]
  cases h2
  exact driveAlone_alone (x := (0, s, q, [])) hc (.nil _ _) h1

end Verif.Text
