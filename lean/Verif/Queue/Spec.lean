import Verif.Lin

/-!
# Sequential specification of `boost::lockfree::queue`

Independent of the model: a queue is the list of its elements, front first.
-/

namespace Verif.Queue

/-- Calls of the thread-safe interface.
* `push b v` is `push(v)` (`b = false`) or `bounded_push(v)` (`b = true`);
* `pop` is `pop(ret)`, also as called by `consume_one` / `consume_all` (queue.hpp:522-572), which apply their
  functor to a local copy after `pop` has returned;
* `empty`, `reserve n`. -/
inductive Op (α : Type) where
  | push (bounded : Bool) (v : α)
  | pop
  | empty
  | reserve (n : Nat)

/-- Outcomes. `pushed ok` is the `bool` of `push`; `popped v`: the value assigned to `ret`, or `none` for the
result `false`; `threw`: an exception of the allocator, of the copy constructor or of the conversion to the
type of `ret` left the call. -/
inductive Ret (α : Type) where
  | pushed (ok : Bool)
  | popped (v : Option α)
  | isEmpty (b : Bool)
  | reserved
  | threw

variable {α : Type}

/-- Meaning of each call on the list of elements; `fixed`: the node pool cannot grow. Nothing is promised about
the result of `empty()` called concurrently with other operations (queue.hpp:298-299). -/
def specStep (fixed : Bool) (σ : List α) : Op α → Ret α → List α → Prop
  | .push b v, .pushed ok, σ' =>
      (ok = true ∧ σ' = σ ++ [v]) ∨ (ok = false ∧ (fixed || b) = true ∧ σ' = σ)
  | .push _ _, .threw, σ' => σ' = σ
  | .pop, .popped none, σ' => σ = [] ∧ σ' = []
  | .pop, .popped (some v), σ' => σ = v :: σ'
  | .pop, .threw, σ' => σ' = σ
  | .empty, .isEmpty _, σ' => σ' = σ
  | .reserve _, .reserved, σ' => σ' = σ
  | .reserve _, .threw, σ' => σ' = σ
  | _, _, _ => False

/-- The sequential queue. -/
def spec (α : Type) (fixed : Bool) : Lin.Spec (Op α) (Ret α) where
  State := List α
  init := []
  step := specStep fixed

end Verif.Queue
