import Verif.User

/-!
# Executing programs that use a container (used by the examples)

No code of /repo is modelled here.
-/

namespace Verif.User.Run
open Lin

variable {S P G K Ch O R : Type} {m : Mach S P Ch O R} {c : Script G K Ch R} {k₀ : K} {ok : S → P → Ch → Prop} {okB : S → P → Ch → Bool} {tau : Ch}
  {s : S} {g : G} {start : Nat → K}

/-- `okBy`, computed. -/
def okByB (m : Mach S P Ch O R) (c : Script G K Ch R) (okB : S → P → Ch → Bool) (σ : S × G) : PC K P → Choice Ch → Bool
  | .at k, .go _ => match c.calls k with
    | some ch => okB σ.1 m.idle ch
    | none => true
  | .call _ p, .inner ch => okB σ.1 p ch
  | _, _ => true

theorem okByB_spec (hc : ∀ s p ch, okB s p ch = true → ok s p ch) {σ : S × G} {p ch} (h : okByB m c okB σ p ch = true) : okBy m c ok σ p ch := by
  unfold okByB at h
  unfold okBy
  split at h
  · intro ch hk
    rw [hk] at h
    exact hc _ _ _ h
  · exact hc _ _ _ h
  · split <;> simp_all

/-- Steps without access of thread `t` in a call, at most `f`. -/
def taus (m : Mach S P Ch O R) (c : Script G K Ch R) (k₀ : K) (tau : Ch) (t : Nat) :
    Nat → MConf (S × G) (PC K P) → History O R → MConf (S × G) (PC K P) × History O R
  | 0, C, h => (C, h)
  | f + 1, C, h =>
    match (mach m c k₀).step t C.s (C.pc t) (.inner tau) with
    | none => (C, h)
    | some (s', p', e) => taus m c k₀ tau t f ⟨s', upd C.pc t p'⟩ (h ++ e.toList)

/-- Runs a schedule; after each step, the thread executes what needs no access. -/
def drive (m : Mach S P Ch O R) (c : Script G K Ch R) (k₀ : K) (okB : S → P → Ch → Bool) (tau : Ch) :
    MConf (S × G) (PC K P) → History O R → List (Nat × Choice Ch) → Option (MConf (S × G) (PC K P) × History O R)
  | C, h, [] => some (C, h)
  | C, h, (t, ch) :: l =>
    if okByB m c okB C.s (C.pc t) ch then
      match (mach m c k₀).step t C.s (C.pc t) ch with
      | none => none
      | some (s', p', e) =>
        let y := taus m c k₀ tau t 100 ⟨s', upd C.pc t p'⟩ (h ++ e.toList)
        drive m c k₀ okB tau y.1 y.2 l
    else none

theorem taus_steps (ht : ∀ s p, ok s p tau) {t f : Nat} {C : MConf (S × G) (PC K P)} {h : History O R} (hx : Runs m c k₀ ok s g start h C) :
    Runs m c k₀ ok s g start (taus m c k₀ tau t f C h).2 (taus m c k₀ tau t f C h).1 := by
  induction f generalizing C h with
  | zero => exact hx
  | succ f ih =>
    unfold taus
    split
    · exact hx
    · rename_i hs
      refine ih (.step hx hs ?_)
      unfold okBy
      split
      · rename_i h2; cases h2
      · rename_i h2; cases h2; exact ht ..
      · trivial

theorem drive_steps (hc : ∀ s p ch, okB s p ch = true → ok s p ch) (ht : ∀ s p, ok s p tau) {sched : List (Nat × Choice Ch)}
    {C C₁ : MConf (S × G) (PC K P)} {h h' : History O R} (hx : Runs m c k₀ ok s g start h C) (hr : drive m c k₀ okB tau C h sched = some (C₁, h')) :
    Runs m c k₀ ok s g start h' C₁ := by
  induction sched generalizing C h with
  | nil => simp [drive] at hr; obtain ⟨rfl, rfl⟩ := hr; exact hx
  | cons a l ih =>
    obtain ⟨t, ch⟩ := a
    simp only [drive] at hr
    split at hr
    · rename_i hb
      split at hr
      · simp at hr
      · rename_i s' p' e hs
        exact ih (taus_steps ht (.step hx hs (okByB_spec hc hb))) hr
    · simp at hr

/-- Steps of the program by thread `t`. -/
def steps (t k : Nat) : List (Nat × Choice Ch) := List.replicate k (t, .go true)

/-- A call, made by the program. -/
def made : List (Nat × Ch) → List (Nat × Choice Ch)
  | [] => []
  | (t, _) :: l => (t, .go true) :: l.map fun y => (y.1, .inner y.2)

/-- What a schedule shows: an execution with this history (of which `f` is seen) and this fact about the configuration. -/
theorem shows {A B : Type} (hc : ∀ s p ch, okB s p ch = true → ok s p ch) (ht : ∀ s p, ok s p tau) (sched : List (Nat × Choice Ch)) {f : History O R → A}
    {q : MConf (S × G) (PC K P) → B} {a : A} {b : B}
    (hr : (drive m c k₀ okB tau ⟨(s, g), fun t => .at (start t)⟩ [] sched).map (fun y => (f y.2, q y.1)) = some (a, b)) :
    ∃ h C, Runs m c k₀ ok s g start h C ∧ f h = a ∧ q C = b := by
  simp only [Option.map_eq_some_iff, Prod.mk.injEq] at hr
  obtain ⟨⟨C, h⟩, h1, h2, h3⟩ := hr
  exact ⟨h, C, drive_steps hc ht (.refl _) h1, h2, h3⟩

end Verif.User.Run
