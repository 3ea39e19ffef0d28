import Verif.Stack.Sim

/-!
# Stack: the invariant holds in every execution (proof)
-/

namespace Verif.Stack
open Lin

variable {α : Type}

theorem GInv.initial (cfg : Cfg) (n : Nat) :
    GInv cfg (Conf.initial n : Conf α) ⟨initOwn n, downFrom 0 n, [], fun _ => []⟩
      (CState.initial (spec α cfg.fixed)) := by
  refine ⟨⟨HInv.initial cfg n, rfl, List.nodup_nil, ?_, ?_, rfl⟩, fun t => ⟨rfl, rfl⟩⟩
  · intro m; simp only [initOwn]; grind
  · simp [Conf.initial]

/-- Every execution without a complete tag wrap in a window satisfies the invariant and is an execution of
the canonical atomic stack. -/
theorem FreshExec.inv {cfg : Cfg} {n : Nat} {h} {C : Conf α} (hx : FreshExec cfg n h C) :
    ∃ g c, GInv cfg C g c ∧ CReach (spec α cfg.fixed) h c := by
  induction hx with
  | refl => exact ⟨_, _, .initial cfg n, .init⟩
  | step _ hs hok ih =>
    obtain ⟨g, c, hi, hr⟩ := ih
    obtain ⟨g', c', hi', hm, _⟩ := hi.step hs hok.1 hok.2
    exact ⟨g', c', hi', hr.move hm⟩

theorem FreshExec.exec {cfg : Cfg} {n : Nat} {h} {C : Conf α} (hx : FreshExec cfg n h C) : Exec cfg n h C :=
  hx.mono fun _ _ _ _ => trivial

end Verif.Stack
