import Verif.Mach
import Verif.Calls

/-!
# Invariants of single calls (generic proof)
-/

namespace Verif
open Lin

variable {S P Ch O R : Type} {m : Mach S P Ch O R} {ok : S → P → Ch → Prop} {C₀ C : MConf S P} {h H : History O R}

/-- A relation between the operation and the PC that is established by every invocation and preserved by every step
holds of all pending calls. -/
theorem MSteps.pending_inv (hlaw : m.Lawful) (Good : O → P → Prop)
    (hcall : ∀ h C t ch s' p' o, MSteps m ok C₀ h C → m.step t C.s m.idle ch = some (s', p', some (.inv t o)) →
      ok C.s m.idle ch → h ++ [.inv t o] <+: H → Good o p')
    (hkeep : ∀ h C t ch s' p' o, MSteps m ok C₀ h C → m.step t C.s (C.pc t) ch = some (s', p', none) →
      ok C.s (C.pc t) ch → h <+: H → Good o (C.pc t) → Good o p')
    (hs : MSteps m ok C₀ h C) (hH : h <+: H) {t i o} (hp : Pending h t i o) : Good o (C.pc t) := by
  induction hs generalizing t i o with
  | refl => exact absurd hp.1 (by simp)
  | @step h C t' ch s' p' e hx hs hok ih =>
    have hH' : h <+: H := (List.prefix_append _ _).trans hH
    cases e with
    | none =>
      simp only [Option.toList, List.append_nil] at hp
      by_cases ht : t' = t
      · subst ht; simp only [upd_self]; exact hkeep _ _ _ _ _ _ _ hx hs hok hH' (ih hH' hp)
      · simp only [upd_ne _ _ _ (Ne.symm ht)]; exact ih hH' hp
    | some e =>
      simp only [Option.toList] at hp hH
      by_cases hi : i < h.length
      · obtain ⟨h1, h2⟩ := hp.unsnoc hi
        rw [(hlaw.event hs).2] at h2
        simp only [upd_ne _ _ _ (Ne.symm h2)]; exact ih hH' h1
      · have h1 := hp.1
        have : i = h.length := by
          have := (List.getElem?_eq_some_iff.1 h1).1; simp at this; omega
        subst this
        simp at h1; subst h1
        rcases hlaw _ _ _ _ _ _ _ hs with ⟨h2, o', h3⟩ | ⟨r, _, _, h3⟩
        · cases h3
          simp only [upd_self]
          exact hcall _ _ _ _ _ _ _ hx (by rw [← h2]; exact hs) (by rw [← h2]; exact hok) hH
        · cases h3

/-- ... and of the results of all completed calls. -/
theorem MSteps.calls_inv (hlaw : m.Lawful) (Good : O → P → Prop)
    (hcall : ∀ h' C t ch s' p' o, MSteps m ok C₀ h' C → m.step t C.s m.idle ch = some (s', p', some (.inv t o)) →
      ok C.s m.idle ch → h' ++ [.inv t o] <+: h → Good o p')
    (hkeep : ∀ h' C t ch s' p' o, MSteps m ok C₀ h' C → m.step t C.s (C.pc t) ch = some (s', p', none) →
      ok C.s (C.pc t) ch → h' <+: h → Good o (C.pc t) → Good o p')
    (hs : MSteps m ok C₀ h C) {i o r} (hc : (i, o, r) ∈ calls h) : Good o (m.ret r) := by
  obtain ⟨⟨t, ht⟩, j, hj⟩ := mem_calls.1 hc
  obtain ⟨t', o', C₁, h1, h2, h3, _⟩ := hs.at_return hlaw hj
  have h4 := h1.1
  rw [List.getElem?_take_of_lt hj.lt.1, ht] at h4
  cases h4
  rw [← h3]
  exact h2.pending_inv hlaw Good hcall hkeep (List.take_prefix _ _) h1

end Verif
