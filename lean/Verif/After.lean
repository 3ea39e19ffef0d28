import Verif.NotLin
import Verif.LockFree

/-!
# Executing schedules (used by the examples)

No code of /repo is modelled here.
-/

namespace Verif
open Lin

variable {S P Ch O R : Type}

/-- Final configuration of a schedule. -/
def Mach.after (m : Mach S P Ch O R) (okb : S → P → Ch → Bool) (C : MConf S P) (sched : List (Nat × Ch)) : MConf S P :=
  match m.runOk okb C [] sched with
  | some (C', _) => C'
  | none => C

theorem Mach.after_steps {m : Mach S P Ch O R} {ok : S → P → Ch → Prop} {okb : S → P → Ch → Bool}
    (hok : ∀ s p ch, okb s p ch = true → ok s p ch) {C : MConf S P} {sched h}
    (ht : (m.runOk okb C [] sched).map (·.2) = some h) : MSteps m ok C h (m.after okb C sched) := by
  simp only [Option.map_eq_some_iff] at ht
  obtain ⟨⟨C', h'⟩, h1, rfl⟩ := ht
  have : m.after okb C sched = C' := by simp only [Mach.after, h1]
  rw [this]
  exact MSteps.runOk hok (.refl _) h1

theorem Mach.runOk_other {m : Mach S P Ch O R} {okb : S → P → Ch → Bool} {t : Nat} {sched : List (Nat × Ch)} {C C' : MConf S P}
    {h h' : History O R} (hs : ∀ x ∈ sched, x.1 ≠ t) (hr : m.runOk okb C h sched = some (C', h')) : C'.pc t = C.pc t := by
  induction sched generalizing C h with
  | nil => simp [Mach.runOk] at hr; rw [hr.1]
  | cons a l ih =>
    obtain ⟨u, ch⟩ := a
    simp only [Mach.runOk] at hr
    split at hr
    · split at hr
      · simp at hr
      · rw [ih (fun x hx => hs x (by simp [hx])) hr]
        exact upd_ne _ _ _ (Ne.symm (hs (u, ch) (by simp)))
    · simp at hr

/-- Threads that do not occur in a schedule of threads below `T`. -/
theorem Mach.after_other {m : Mach S P Ch O R} {okb : S → P → Ch → Bool} {T t : Nat} {sched : List (Nat × Ch)} {C : MConf S P}
    (hs : sched.all (fun x => decide (x.1 < T)) = true) (ht : T ≤ t) : (m.after okb C sched).pc t = C.pc t := by
  unfold Mach.after
  split
  · rename_i C' h' hr
    refine Mach.runOk_other (fun x hx => ?_) hr
    have := List.all_eq_true.1 hs x hx
    simp at this
    omega
  · rfl

/-- Run a schedule of threads below `T` and count steps and spurious failures. -/
def Mach.runCount (m : Mach S P Ch O R) (okb : S → P → Ch → Bool) (spur : P → Ch → Bool) (T : Nat) :
    MConf S P → History O R → Nat → Nat → List (Nat × Ch) → Option (MConf S P × History O R × Nat × Nat)
  | C, h, k, f, [] => some (C, h, k, f)
  | C, h, k, f, (t, ch) :: l =>
    if okb C.s (C.pc t) ch && decide (t < T) then
      match m.step t C.s (C.pc t) ch with
      | none => none
      | some (s', p', e) =>
        if spur (C.pc t) ch then m.runCount okb spur T ⟨s', upd C.pc t p'⟩ (h ++ e.toList) k (f + 1) l
        else m.runCount okb spur T ⟨s', upd C.pc t p'⟩ (h ++ e.toList) (k + 1) f l
    else none

theorem Counted.run {m : Mach S P Ch O R} {ok : S → P → Ch → Prop} {okb : S → P → Ch → Bool} {spur : P → Ch → Bool} {T : Nat}
    (hok : ∀ s p ch, okb s p ch = true → ok s p ch) {sched : List (Nat × Ch)} {C₀ C C₁ : MConf S P} {h h' : History O R}
    {k f k' f' : Nat} (hx : Counted m ok spur T C₀ h C k f) (hr : m.runCount okb spur T C h k f sched = some (C₁, h', k', f')) :
    Counted m ok spur T C₀ h' C₁ k' f' := by
  induction sched generalizing C h k f with
  | nil => simp [Mach.runCount] at hr; obtain ⟨rfl, rfl, rfl, rfl⟩ := hr; exact hx
  | cons a l ih =>
    obtain ⟨t, ch⟩ := a
    simp only [Mach.runCount] at hr
    split at hr
    · rename_i hb
      simp only [Bool.and_eq_true, decide_eq_true_eq] at hb
      split at hr
      · simp at hr
      · rename_i s' p' e hs
        split at hr
        · rename_i hsp; exact ih (.fail hx hb.2 hs (hok _ _ _ hb.1) hsp) hr
        · rename_i hsp; exact ih (.step hx hb.2 hs (hok _ _ _ hb.1) (by simpa using hsp)) hr
    · simp at hr

/-- `Returned`, computed. -/
def returnedB (h : History O R) (i j : Nat) : Option R :=
  match h[i]?, h[j]? with
  | some (.inv t _), some (.res u r) =>
    if u = t ∧ i < j ∧ ((h.drop (i + 1)).take (j - (i + 1))).all (fun e => e.tid != t) then some r else none
  | _, _ => none

theorem returned_of {h : History O R} {i j : Nat} {r : R} (hr : returnedB h i j = some r) : Returned h i j r := by
  unfold returnedB at hr
  split at hr
  · rename_i t o u r' h1 h3
    split at hr
    · rename_i hc
      obtain ⟨rfl, hij, hall⟩ := hc
      cases hr
      refine ⟨u, o, h1, hij, h3, fun k e hk1 hk2 hk => ?_⟩
      rw [List.all_eq_true] at hall
      have := hall e ?_
      · simpa using this
      · rw [List.mem_iff_getElem?]
        refine ⟨k - (i + 1), ?_⟩
        rw [List.getElem?_take_of_lt (by omega), List.getElem?_drop, show i + 1 + (k - (i + 1)) = k by omega, hk]
    · cases hr
  · cases hr

/-- `Pending`, computed. -/
def pendingB (h : History O R) (t i : Nat) : Option O :=
  match h[i]? with
  | some (.inv u o) => if u = t ∧ (h.drop (i + 1)).all (fun e => e.tid != t) then some o else none
  | _ => none

theorem pending_of {h : History O R} {t i : Nat} {o : O} (hr : pendingB h t i = some o) : Pending h t i o := by
  unfold pendingB at hr
  split at hr
  · rename_i u o' h1
    split at hr
    · rename_i hc
      obtain ⟨rfl, hall⟩ := hc
      cases hr
      refine ⟨h1, fun k e hk1 hk => ?_⟩
      rw [List.all_eq_true] at hall
      have := hall e ?_
      · simpa using this
      · rw [List.mem_iff_getElem?]
        refine ⟨k - (i + 1), ?_⟩
        rw [List.getElem?_drop, show i + 1 + (k - (i + 1)) = k by omega, hk]
    · cases hr
  · cases hr

end Verif
