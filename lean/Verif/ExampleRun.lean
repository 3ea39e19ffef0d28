import Verif.ExampleEnd
import Verif.TextRun

/-!
# Executing the example programs (used by the examples)

No code of /repo is modelled here.
-/

namespace Verif.Example
open Lin Text

variable {S L Ch O R : Type} {P : Program S L Ch O R} {x : Setup (TChoice Ch O) R} {okCall : S → O → Prop} {okc : S → O → Bool}

/-- Configurations. -/
abbrev TextConf (S L Ch R : Type) := MConf (S × Vars) (PC (TPC S L Ch R))

/-- Steps without access of thread `t` in a call, at most `f`. -/
def tauRun (P : Program S L Ch O R) (x : Setup (TChoice Ch O) R) (t : Nat) : Nat → TextConf S L Ch R → History O R → TextConf S L Ch R × History O R
  | 0, C, h => (C, h)
  | f + 1, C, h =>
    match (mach P.mach x).step t C.s (C.pc t) (.inner .tau) with
    | none => (C, h)
    | some (s', p', e) => tauRun P x t f ⟨s', upd C.pc t p'⟩ (h ++ e.toList)

/-- `okBy`, computed. -/
def okByB (P : Program S L Ch O R) (x : Setup (TChoice Ch O) R) (okc : S → O → Bool) (σ : S × Vars) : PC (TPC S L Ch R) → Choice (TChoice Ch O) → Bool
  | .at (.push _ v), .go => Program.okB okc σ.1 P.mach.idle (x.push v)
  | .at (.pop _), .go => Program.okB okc σ.1 P.mach.idle x.pop
  | .call _ p, .inner ch => Program.okB okc σ.1 p ch
  | _, _ => true

/-- Runs a schedule; after each step, the thread executes what needs no access. -/
def drive (P : Program S L Ch O R) (x : Setup (TChoice Ch O) R) (okc : S → O → Bool) : TextConf S L Ch R → History O R →
    List (Nat × Choice (TChoice Ch O)) → Option (TextConf S L Ch R × History O R)
  | C, h, [] => some (C, h)
  | C, h, (t, ch) :: l =>
    if okByB P x okc C.s (C.pc t) ch then
      match (mach P.mach x).step t C.s (C.pc t) ch with
      | none => none
      | some (s', p', e) =>
        let y := tauRun P x t 100 ⟨s', upd C.pc t p'⟩ (h ++ e.toList)
        drive P x okc y.1 y.2 l
    else none

theorem okByB_spec (hc : ∀ s o, okc s o = true → okCall s o) {σ : S × Vars} {p : PC (TPC S L Ch R)} {ch} (h : okByB P x okc σ p ch = true) :
    okBy P.mach x (Program.ok okCall) σ p ch := by
  unfold okByB at h
  unfold okBy
  split at h
  · exact okB_spec hc h
  · exact okB_spec hc h
  · exact okB_spec hc h
  · split <;> simp_all

theorem tauRun_steps {t f : Nat} {C₀ C : TextConf S L Ch R} {h : History O R} (hx : MSteps (mach P.mach x) (okBy P.mach x (Program.ok okCall)) C₀ h C) :
    MSteps (mach P.mach x) (okBy P.mach x (Program.ok okCall)) C₀ (tauRun P x t f C h).2 (tauRun P x t f C h).1 := by
  induction f generalizing C h with
  | zero => exact hx
  | succ f ih =>
    unfold tauRun
    split
    · exact hx
    · rename_i hs
      refine ih (.step hx hs ?_)
      unfold okBy
      split
      · trivial
      · trivial
      · rename_i h2; cases h2; exact tau_ok ..
      · trivial

theorem drive_steps (hc : ∀ s o, okc s o = true → okCall s o) {sched : List (Nat × Choice (TChoice Ch O))} {C₀ C C₁ : TextConf S L Ch R}
    {h h' : History O R} (hx : MSteps (mach P.mach x) (okBy P.mach x (Program.ok okCall)) C₀ h C) (hr : drive P x okc C h sched = some (C₁, h')) :
    MSteps (mach P.mach x) (okBy P.mach x (Program.ok okCall)) C₀ h' C₁ := by
  induction sched generalizing C h with
  | nil => simp [drive] at hr; obtain ⟨rfl, rfl⟩ := hr; exact hx
  | cons a l ih =>
    obtain ⟨t, ch⟩ := a
    simp only [drive] at hr
    split at hr
    · rename_i hb
      split at hr
      · simp at hr
      · rename_i s' p' e hs
        exact ih (tauRun_steps (.step hx hs (okByB_spec hc hb))) hr
    · simp at hr

/-- Final configuration of a schedule. -/
def ending (P : Program S L Ch O R) (x : Setup (TChoice Ch O) R) (okc : S → O → Bool) (s : S) (sched : List (Nat × Choice (TChoice Ch O))) :
    TextConf S L Ch R :=
  match drive P x okc (initial x s) [] sched with
  | some (C', _) => C'
  | none => initial x s

theorem ending_runs (hc : ∀ s o, okc s o = true → okCall s o) {s : S} {sched : List (Nat × Choice (TChoice Ch O))} {h : History O R}
    (ht : (drive P x okc (initial x s) [] sched).map (·.2) = some h) : Runs P.mach x (Program.ok okCall) s h (ending P x okc s sched) := by
  simp only [Option.map_eq_some_iff] at ht
  obtain ⟨⟨C', h'⟩, h1, rfl⟩ := ht
  have : ending P x okc s sched = C' := by simp only [ending, h1]
  rw [this]
  exact drive_steps hc (.refl _) h1

/-- Steps of the program by thread `t`. -/
def steps (t k : Nat) : List (Nat × Choice (TChoice Ch O)) := List.replicate k (t, .go)

end Verif.Example
