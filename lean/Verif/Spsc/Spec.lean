import Verif.Lin

/-!
# Sequential specification of `boost::lockfree::spsc_queue`

Independent of the model: a bounded queue is the list of its elements, front first.
-/

namespace Verif.Spsc

/-- Calls. Thread 0 is the producer, thread 1 the consumer.
* producer: `push v` (`push(t)`), `pushMany vs` (the three bulk `push` overloads), `writeAvail`, `isEmpty`;
* consumer: `pop` (`pop()`, `pop(ret)`, `consume_one(f)`), `popMany copy lim` (`consume_all(f)`: `copy = false`,
  `lim = none`; `pop(ptr, n)` and `pop(T (&)[n])`: `copy = true`, `lim = some n`; `pop(iterator)`: `copy = true`,
  `lim = none`), `readAvail`, `isEmpty`, `front checked` (`checked`: `BOOST_ASSERT` is active). -/
inductive Op (α : Type) where
  | push (v : α)
  | pushMany (vs : List α)
  | writeAvail
  | isEmpty
  | pop
  | popMany (copy : Bool) (lim : Option Nat)
  | readAvail
  | front (checked : Bool)

/-- Outcomes. `pushedMany k`: number of elements accepted (the returned iterator is `begin + k`).
`popped`, `poppedMany`: the values handed to the functor or copied out. `asserted`: the `BOOST_ASSERT` in
`front()` failed. `threw`: an exception of user code left the call. -/
inductive Ret (α : Type) where
  | pushed (ok : Bool)
  | pushedMany (k : Nat)
  | writeAvail (k : Nat)
  | isEmpty (b : Bool)
  | popped (v : Option α)
  | poppedMany (vs : List α)
  | readAvail (k : Nat)
  | front (v : α)
  | asserted
  | threw

variable {α : Type}

/-- The limit of a bulk pop applied to a number of available elements. -/
def atMost : Option Nat → Nat → Nat
  | none, a => a
  | some l, a => min l a

/-- Meaning of each call on a queue of capacity `cap`. A bulk push accepts a prefix that fits, and none only if it is
empty or the queue full; a bulk pop takes a prefix, and nothing only if nothing is asked for or the queue empty: by the
time they take effect there may be more room or more elements than they saw. How many they transfer is the subject of
C02 and C05. -/
def specStep (cap : Nat) (σ : List α) : Op α → Ret α → List α → Prop
  | .push v, .pushed true, σ' => σ.length < cap ∧ σ' = σ ++ [v]
  | .push _, .pushed false, σ' => σ.length = cap ∧ σ' = σ
  | .push _, .threw, σ' => σ' = σ
  | .pushMany vs, .pushedMany k, σ' => k ≤ vs.length ∧ σ.length + k ≤ cap ∧ (k = 0 → vs = [] ∨ σ.length = cap) ∧
      σ' = σ ++ vs.take k
  | .pushMany _, .threw, σ' => σ' = σ
  | .writeAvail, .writeAvail k, σ' => σ.length + k = cap ∧ σ' = σ
  | .isEmpty, .isEmpty b, σ' => (b = true ↔ σ = []) ∧ σ' = σ
  | .pop, .popped none, σ' => σ = [] ∧ σ' = []
  | .pop, .popped (some v), σ' => σ = v :: σ'
  | .pop, .threw, σ' => σ' = σ
  | .popMany _ lim, .poppedMany vs, σ' => σ = vs ++ σ' ∧ (∀ l ∈ lim, vs.length ≤ l) ∧
      (vs = [] → σ = [] ∨ lim = some 0)
  | .popMany _ _, .threw, σ' => σ' = σ
  | .readAvail, .readAvail k, σ' => k = σ.length ∧ σ' = σ
  | .front _, .front v, σ' => σ.head? = some v ∧ σ' = σ
  | .front true, .asserted, σ' => σ = [] ∧ σ' = σ
  | _, _, _ => False

/-- The sequential bounded queue. -/
def spec (α : Type) (cap : Nat) : Lin.Spec (Op α) (Ret α) where
  State := List α
  init := []
  step := specStep cap

end Verif.Spsc
