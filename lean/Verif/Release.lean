import Verif.HeapInv
import Mathlib.Data.List.Nodup
import Mathlib.Data.List.Perm.Basic

/-!
# The destructor of the node-based freelist

Models `~freelist_stack` (freelist.hpp:119-129). The array-based freelist has no destructor of its own; its array is a member
(`compiletime_sized_freelist_storage`, freelist.hpp:333-358) or is given back as a whole by `~runtime_sized_freelist_storage`
(freelist.hpp:380-383).
-/

namespace Verif

variable {α : Type}

/-- The loop of `~freelist_stack` (freelist.hpp:123-128): `current` points to node `p`, the nodes `freed` have been given back to
the allocator (latest first). The result is the list of all nodes given back, or `none` if a node is accessed or given back that
the allocator does not currently lend: undefined behaviour. -/
inductive Releases (h : Heap α) : Option Nat → List Nat → Option (List Nat) → Prop where
  /-- `while (current)` ends at a null pointer (line 123). -/
  | done {freed} : Releases h none freed (some freed)
  /-- Read of `current_ptr->next` or `Alloc::deallocate` of a node that is not allocated (lines 126, 127). -/
  | bad {n freed} : (n ∈ freed ∨ h.nalloc ≤ n) → Releases h (some n) freed none
  /-- Lines 124-127. -/
  | node {n freed out} : n ∉ freed → n < h.nalloc → Releases h (h.next n).ptr (n :: freed) out →
      Releases h (some n) freed out

/-- `~freelist_stack` (freelist.hpp:119-129): start from `pool_`. -/
def Heap.destroyed (h : Heap α) (out : Option (List Nat)) : Prop := Releases h h.pool.ptr [] out

theorem releases_iff {h : Heap α} {l : List Nat} : ∀ {p freed out}, Chain h.next p l → (l ++ freed).Nodup →
    (∀ n ∈ l, n < h.nalloc) → (Releases h p freed out ↔ out = some (l.reverse ++ freed)) := by
  induction l with
  | nil =>
    intro p freed out hc _ _
    have hc : p = none := hc
    subst hc
    constructor
    · intro hr; cases hr; rfl
    · rintro rfl; exact .done
  | cons n l ih =>
    intro p freed out hc hn hl
    obtain ⟨rfl, hc⟩ := hc
    have h1 : (l ++ n :: freed).Nodup := by
      have : (n :: (l ++ freed)).Nodup := hn
      exact (List.perm_middle.nodup_iff).2 this
    have h2 : n ∉ freed := by
      intro h3; have : (n :: (l ++ freed)).Nodup := hn
      simp [h3] at this
    have h3 := hl n (by simp)
    have h4 := ih (out := out) hc h1 fun m hm => hl m (by simp [hm])
    constructor
    · intro hr
      cases hr with
      | bad hb => rcases hb with hb | hb
                  · exact absurd hb h2
                  · omega
      | node _ _ hr => rw [h4.1 hr]; simp
    · intro ho
      exact .node h2 h3 (h4.2 (by rw [ho]; simp))

/-- The freelist destructor on a proper free list. -/
theorem Heap.destroyed_iff {h : Heap α} {F : List Nat} (hc : Chain h.next h.pool.ptr F) (hn : F.Nodup)
    (hl : ∀ n ∈ F, n < h.nalloc) {out} : h.destroyed out ↔ out = some F.reverse := by
  rw [Heap.destroyed, releases_iff hc (by simpa using hn) hl]; simp

end Verif
