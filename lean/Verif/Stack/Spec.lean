import Verif.Lin

/-!
# Sequential specification of `boost::lockfree::stack`

Independent of the model: a stack is the list of its elements, top first.
-/

namespace Verif.Stack

/-- Calls of the thread-safe interface.
* `push b v` is `push(v)` (`b = false`) or `bounded_push(v)` (`b = true`);
* `pushRange b vs` is `push(begin, end)` or `bounded_push(begin, end)`;
* `pop thr` is `pop(ret)` / `consume_one(f)`; `thr` says whether the functor (or the assignment to `ret`)
  throws when it is applied to the element;
* `consumeAll rev thr` is `consume_all_atomic(f)` or `consume_all_atomic_reversed(f)`; if `thr = some k`
  the functor throws in its call number `k` (counted from 0);
* `empty`, `reserve n`. -/
inductive Op (α : Type) where
  | push (bounded : Bool) (v : α)
  | pushRange (bounded : Bool) (vs : List α)
  | pop (thr : Bool)
  | consumeAll (rev : Bool) (thr : Option Nat)
  | empty
  | reserve (n : Nat)

/-- Outcomes. `pushed ok` is the `bool` of `push`; `count k`: the returned iterator is `begin + k`;
`popped v`: the value assigned to `ret` / passed to the functor, or `none` for the result `false`;
`took vs`: the values passed to the functor, in order (after which the functor may have thrown);
`threw`: an exception of the allocator or of a copy constructor left the call. -/
inductive Ret (α : Type) where
  | pushed (ok : Bool)
  | count (k : Nat)
  | popped (v : Option α)
  | took (vs : List α)
  | isEmpty (b : Bool)
  | reserved
  | threw

variable {α : Type}

/-- The values a functor gets to see that throws in call `k`. -/
def seen (thr : Option Nat) (vs : List α) : List α :=
  match thr with
  | none => vs
  | some k => vs.take (k + 1)

/-- Meaning of each call on the list of elements; `fixed`: the node pool cannot grow. -/
def specStep (fixed : Bool) (σ : List α) : Op α → Ret α → List α → Prop
  | .push b v, .pushed ok, σ' => (ok = true ∧ σ' = v :: σ) ∨ (ok = false ∧ (fixed || b) = true ∧ σ' = σ)
  | .push _ _, .threw, σ' => σ' = σ
  | .pushRange b vs, .count k, σ' =>
      k ≤ vs.length ∧ (k < vs.length → (fixed || b) = true) ∧ σ' = (vs.take k).reverse ++ σ
  | .pushRange _ _, .threw, σ' => σ' = σ
  | .pop _, .popped none, σ' => σ = [] ∧ σ' = []
  | .pop _, .popped (some v), σ' => σ = v :: σ'
  | .consumeAll rev thr, .took vs, σ' => vs = seen thr (if rev then σ.reverse else σ) ∧ σ' = []
  | .empty, .isEmpty b, σ' => (b = true ↔ σ = []) ∧ σ' = σ
  | .reserve _, .reserved, σ' => σ' = σ
  | .reserve _, .threw, σ' => σ' = σ
  | _, _, _ => False

/-- The sequential stack. -/
def spec (α : Type) (fixed : Bool) : Lin.Spec (Op α) (Ret α) where
  State := List α
  init := []
  step := specStep fixed

end Verif.Stack
