import Verif.ClientInstant
import Verif.After

/-!
# Calls of routines in concrete traces (used by the examples)

No code of /repo is modelled here.
-/

namespace Verif
open Lin

variable {O R CO CR : Type} {tr : Trace O R CO CR} {t i j : Nat}

theorem between_of {p : Event (CO ⊕ O) (CR ⊕ R) → Bool} (h : (strictly tr i j).all p = true) :
    ∀ (k : Nat) e, i < k → k < j → tr[k]? = some e → p e = true := by
  intro k e h1 h2 h3
  refine List.all_eq_true.1 h e ?_
  rw [List.mem_iff_getElem?]
  refine ⟨k - (i + 1), ?_⟩
  rw [strictly, List.getElem?_drop, show i + 1 + (k - (i + 1)) = k by omega, List.getElem?_take_of_lt h2, h3]

/-- Is there no event of a routine of thread `t` strictly between `i` and `j`? -/
def noOuterB (tr : Trace O R CO CR) (t i j : Nat) : Bool :=
  (strictly tr i j).all fun e => decide (e.tid ≠ t) || (outer? e).isNone

/-- Is there no event of a call of the container by thread `t` strictly between `i` and `j`? -/
def noInnerB (tr : Trace O R CO CR) (t i j : Nat) : Bool :=
  (strictly tr i j).all fun e => decide (e.tid ≠ t) || (inner? e).isNone

theorem routineCall_of {o r} (hij : i < j) (hi : tr[i]? = some (.inv t (.inl o))) (hj : tr[j]? = some (.res t (.inl r)))
    (h : noOuterB tr t i j = true) : RoutineCall tr t i j o r := by
  refine ⟨hij, hi, hj, fun k e h1 h2 h3 h4 => ?_⟩
  have := between_of h k e h1 h2 h3
  simpa [h4] using this

theorem innerCall_of {o r} (hij : i < j) (hi : tr[i]? = some (.inv t (.inr o))) (hj : tr[j]? = some (.res t (.inr r)))
    (h : noInnerB tr t i j = true) : InnerCall tr t i j o r := by
  refine ⟨hij, hi, hj, fun k e h1 h2 h3 h4 => ?_⟩
  have := between_of h k e h1 h2 h3
  simpa [h4] using this

end Verif
