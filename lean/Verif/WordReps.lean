import Verif.WordMem

/-!
# The representations used by the containers (C51)

Node-based containers use `tagged_ptr`: compressed (tagged_ptr_ptrcompression.hpp) or as a pair (tagged_ptr_dcas.hpp); containers with
a fixed number of nodes use `tagged_index` (freelist.hpp:260-331; selection in freelist.hpp:616-639). The operations are those of
`Verif.Tagged` and `Verif.Words`.
-/

namespace Verif

/-- Fixed-size containers with `count` nodes. -/
def indexRep (count : Nat) : Rep where
  K := indexWords count
  M := 2 ^ 16
  encT := BitVec.ofNat 16
  fixed := true
  zero := ⟨0#16, 0#16⟩
  limit := count

/-- Node-based containers with compressed pointers on a little-endian machine: node `n` is at address `addr n`; the allocator hands out
at most `limit` nodes. -/
def compressedRep (addr : Nat → BitVec 64) (nodeAt : BitVec 64 → Nat) (limit : Nat) : Rep where
  K := compressedWords .little addr nodeAt
  M := 2 ^ 16
  encT := BitVec.ofNat 16
  fixed := false
  zero := 0#64
  limit := limit

/-- Node-based containers with a pointer and a 64-bit tag side by side. -/
def dcasRep (addr : Nat → BitVec 64) (nodeAt : BitVec 64 → Nat) (limit : Nat) : Rep where
  K := dcasWords addr nodeAt
  M := 2 ^ 64
  encT := BitVec.ofNat 64
  fixed := false
  zero := ⟨0#64, 0#64⟩
  limit := limit

/-- **C51.** At most 65535 nodes. -/
theorem indexRep_faithful {count : Nat} (hc : count ≤ 65535) : (indexRep count).Faithful where
  pos := Nat.two_pow_pos _
  words := indexWords_faithful hc
  zero_tag := rfl
  zero_null := nofun

theorem packPtr_zero {p : BitVec 64} (hp : Fits p) : packPtr .little p 0#16 = p := by
  apply BitVec.eq_of_getLsbD_eq
  intro i hi
  rw [packPtr_bit]
  by_cases h : i < 48
  · simp [h]
  · simp [h, hp.bit (Nat.le_of_not_lt h)]

/-- **C51.** Different addresses, below `2^48`, not null. -/
theorem compressedRep_faithful {addr : Nat → BitVec 64} {nodeAt : BitVec 64 → Nat} {limit : Nat}
    (h48 : ∀ n < limit, Fits (addr n)) (h0 : ∀ n < limit, addr n ≠ 0#64) (hinv : ∀ n < limit, nodeAt (addr n) = n) :
    (compressedRep addr nodeAt limit).Faithful where
  pos := Nat.two_pow_pos _
  words := compressedWords_faithful h48 h0 hinv
  zero_tag := show extractTag .little 0#64 = 0#16 by decide
  zero_null := fun _ => (packPtr_zero (p := 0#64) (show (0#64).toNat < 2 ^ 48 by decide)).symm

/-- **C51.** Different addresses, not null. -/
theorem dcasRep_faithful {addr : Nat → BitVec 64} {nodeAt : BitVec 64 → Nat} {limit : Nat}
    (h0 : ∀ n < limit, addr n ≠ 0#64) (hinv : ∀ n < limit, nodeAt (addr n) = n) : (dcasRep addr nodeAt limit).Faithful where
  pos := Nat.two_pow_pos _
  words := dcasWords_faithful h0 hinv
  zero_tag := rfl
  zero_null := fun _ => rfl

/-! ### Lists of nodes -/

/-- The nodes reached from a handle by following the links, up to a null handle. -/
inductive Linked (R : Rep) (m : SMem R.K α) : R.K.H → List Nat → Prop where
  | nil {p} : R.K.node p = none → Linked R m p []
  | cons {p n l} : R.K.node p = some n → Linked R m (R.K.ptr (m.next n)) l → Linked R m p (n :: l)

theorem Linked.unique {R : Rep} {m : SMem R.K α} {p l l'} (h : Linked R m p l) (h' : Linked R m p l') : l = l' := by
  induction h generalizing l' with
  | nil h1 =>
    cases h' with
    | nil => rfl
    | cons h2 => simp [h1] at h2
  | cons h1 _ ih =>
    cases h' with
    | nil h2 => simp [h1] at h2
    | cons h2 h3 => rw [h1] at h2; cases h2; rw [ih h3]

theorem MemRel.linked {R : Rep} (hf : R.Faithful) {h : Heap α} {m : SMem R.K α} (hm : MemRel R h m) {p : Option Nat} {l : List Nat}
    (hc : Chain h.next p l) (hp : okPtr (· < h.nalloc) p) : Linked R m (R.K.hnd p) l := by
  induction l generalizing p with
  | nil => cases hc; exact .nil (hf.node_hnd okPtr.none hm.limit)
  | cons n l ih =>
    obtain ⟨rfl, hc⟩ := hc
    have hn := hp n rfl
    refine .cons (hf.node_hnd hp hm.limit) ?_
    rw [hm.next n hn, hf.ptr ((hm.okNext n hn).mono hm.limit)]
    exact ih hc (hm.okNext n hn).1

end Verif
