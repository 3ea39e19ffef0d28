import Verif.Mach

/-!
# One thread running alone

No code of /repo is modelled here.
-/

namespace Verif
open Lin

variable {S P Ch O R : Type}

/-- `Alone m ok t k s p h s' p'`: `k` steps of thread `t` alone lead from shared state `s` and PC `p` to `s'` and
`p'`; all steps satisfy `ok`. -/
inductive Alone (m : Mach S P Ch O R) (ok : S → P → Ch → Prop) (t : Nat) : Nat → S → P → History O R → S → P → Prop where
  | nil (s p) : Alone m ok t 0 s p [] s p
  | cons {k s p ch s' p' e h s'' p''} : m.step t s p ch = some (s', p', e) → ok s p ch →
      Alone m ok t k s' p' h s'' p'' → Alone m ok t (k + 1) s p (e.toList ++ h) s'' p''

variable {m : Mach S P Ch O R} {ok ok' : S → P → Ch → Prop} {t k : Nat} {s s' s'' : S} {p p' p'' : P} {h h' : History O R}

theorem Alone.trans {k'} (h1 : Alone m ok t k s p h s' p') (h2 : Alone m ok t k' s' p' h' s'' p'') :
    Alone m ok t (k + k') s p (h ++ h') s'' p'' := by
  induction h1 with
  | nil => simpa using h2
  | cons hs hok _ ih => rw [Nat.add_right_comm, List.append_assoc]; exact .cons hs hok (ih h2)

theorem Alone.mono (hm : ∀ s p ch, ok s p ch → ok' s p ch) (hx : Alone m ok t k s p h s' p') :
    Alone m ok' t k s p h s' p' := by
  induction hx with
  | nil => exact .nil _ _
  | cons hs hok _ ih => exact .cons hs (hm _ _ _ hok) ih

theorem Alone.one {ch e} (hs : m.step t s p ch = some (s', p', e)) (hok : ok s p ch) :
    Alone m ok t 1 s p e.toList s' p' := by
  simpa using Alone.cons hs hok (.nil _ _)

theorem Alone.snoc {ch e} (hx : Alone m ok t k s p h s' p') (hs : m.step t s' p' ch = some (s'', p'', e))
    (hok : ok s' p' ch) : Alone m ok t (k + 1) s p (h ++ e.toList) s'' p'' := hx.trans (.one hs hok)

theorem upd_upd {A : Type} (f : Nat → A) (i : Nat) (a b : A) : upd (upd f i a) i b = upd f i b := by
  funext j; unfold upd; split <;> rfl

theorem upd_same {A : Type} {f : Nat → A} {i : Nat} {a : A} (h : f i = a) : upd f i a = f := by
  funext j; unfold upd; split
  · rename_i hj; rw [hj, h]
  · rfl

/-- A thread running alone within a configuration. -/
theorem Alone.steps {C : MConf S P} (hx : Alone m ok t k s p h s' p') (h1 : C.s = s) (h2 : C.pc t = p) :
    MSteps m ok C h ⟨s', upd C.pc t p'⟩ := by
  induction hx generalizing C with
  | nil => subst h1; rw [upd_same h2]; exact .refl _
  | @cons k s p ch s₁ p₁ e h s'' p'' hs hok _ ih =>
    subst h1 h2
    have h3 := ih (C := ⟨s₁, upd C.pc t p₁⟩) rfl (by simp)
    have h4 := (MSteps.refl (m := m) (ok := ok) C).step hs hok
    have h5 := h4.trans h3
    simpa [upd_upd] using h5

end Verif
