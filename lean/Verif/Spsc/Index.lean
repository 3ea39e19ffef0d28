/-!
# `spsc_queue`: index arithmetic in `std::size_t` (spsc_queue.hpp:65-88)

`std::size_t` is `BitVec 64`: addition and subtraction wrap around as in C++. The theorems relate these
functions to arithmetic on natural numbers (C06) and treat the limits of the constructor argument (C13).
-/

namespace Verif.Spsc

/-- `std::size_t`. -/
abbrev SizeT := BitVec 64

/-- The loop of `next_index` (spsc_queue.hpp:68-70), entered with `ret`: `NextLoop max ret res` says that it ends
and returns `res`. -/
inductive NextLoop (max : SizeT) : SizeT → SizeT → Prop where
  | done {ret} : ¬ ret ≥ max → NextLoop max ret ret
  | again {ret res} : ret ≥ max → NextLoop max (ret - max) res → NextLoop max ret res

/-- `next_index( arg, max_size )` (spsc_queue.hpp:65-71) as a function; `none`: it does not return. That this is
what the loop computes is `nextIndex_spec`. -/
def nextIndex (arg max : SizeT) : Option SizeT :=
  if max = 0 then none else some ((arg + 1) % max)

/-- `read_available( write_index, read_index, max_size )` (spsc_queue.hpp:73-80). -/
def readAvail (w r max : SizeT) : SizeT :=
  if w ≥ r then w - r else w + max - r

/-- `write_available( write_index, read_index, max_size )` (spsc_queue.hpp:82-88). -/
def writeAvail (w r max : SizeT) : SizeT :=
  if w ≥ r then (r - w - 1) + max else r - w - 1

/-- `max_elements_( max_elements + 1 )` (spsc_queue.hpp:544, 557, 569) and `max_size = MaxSize + 1` (424). -/
def bufferSize (n : SizeT) : SizeT := n + 1

/-! ### The loop of `next_index` -/

theorem NextLoop.spec {max ret res : SizeT} (h : NextLoop max ret res) : max ≠ 0 ∧ res = ret % max := by
  induction h with
  | @done ret h =>
    have h1 : ret.toNat < max.toNat := by simpa [BitVec.le_def] using h
    refine ⟨fun h0 => by simp [h0] at h1, ?_⟩
    apply BitVec.eq_of_toNat_eq
    simp [BitVec.toNat_umod, Nat.mod_eq_of_lt h1]
  | @again ret res h _ ih =>
    obtain ⟨h0, rfl⟩ := ih
    refine ⟨h0, ?_⟩
    have h1 : max.toNat ≤ ret.toNat := by simpa [BitVec.le_def] using h
    apply BitVec.eq_of_toNat_eq
    have h2 : (ret - max).toNat = ret.toNat - max.toNat := by
      rw [BitVec.toNat_sub]; have := ret.isLt; have := max.isLt; omega
    rw [BitVec.toNat_umod, BitVec.toNat_umod, h2]
    exact (Nat.mod_eq_sub_mod h1).symm

theorem NextLoop.exists {max : SizeT} (h0 : max ≠ 0) (ret : SizeT) : ∃ res, NextLoop max ret res := by
  have hpos : 0 < max.toNat := by
    rcases Nat.eq_zero_or_pos max.toNat with h | h
    · exact absurd (BitVec.eq_of_toNat_eq (by simpa using h)) h0
    · exact h
  generalize hk : ret.toNat = k
  induction k using Nat.strongRecOn generalizing ret with
  | ind k ih =>
    by_cases h : ret ≥ max
    · have h1 : max.toNat ≤ ret.toNat := by simpa [BitVec.le_def] using h
      have h2 : (ret - max).toNat = ret.toNat - max.toNat := by
        rw [BitVec.toNat_sub]; have := ret.isLt; have := max.isLt; omega
      obtain ⟨res, hr⟩ := ih (ret - max).toNat (by omega) (ret - max) rfl
      exact ⟨res, .again h hr⟩
    · exact ⟨ret, .done h⟩

/-- The loop of `next_index` returns exactly what `nextIndex` says; in particular it runs forever iff
`max_size = 0`. -/
theorem nextIndex_spec (arg max res : SizeT) : NextLoop max (arg + 1) res ↔ nextIndex arg max = some res := by
  unfold nextIndex
  constructor
  · intro h
    obtain ⟨h0, rfl⟩ := h.spec
    rw [if_neg h0]
  · intro h
    split at h
    · simp at h
    · rename_i h0
      obtain ⟨res', h1⟩ := NextLoop.exists h0 (arg + 1)
      injection h with h
      rw [← h, ← (h1.spec).2]; exact h1

/-! ### Meaning in natural numbers -/

theorem mod_add {n c d : Nat} (hd : d ≤ n) (hn : 0 < n) :
    (c + d) % n = if c % n + d < n then c % n + d else c % n + d - n := by
  have h1 : c % n < n := Nat.mod_lt _ hn
  have h2 : (c + d) % n = (c % n + d) % n := by simp [Nat.add_mod]
  rw [h2]
  split
  · rename_i h; exact Nat.mod_eq_of_lt h
  · rename_i h
    rw [Nat.mod_eq_sub_mod (by omega)]
    exact Nat.mod_eq_of_lt (by omega)

/-- Positions in a window of length `n` have distinct remainders. -/
theorem mod_inj {n D q q' : Nat} (h1 : D ≤ q) (h2 : q < D + n) (h3 : D ≤ q') (h4 : q' < D + n)
    (h : q % n = q' % n) : q = q' := by
  have key : ∀ {a b : Nat}, a ≤ b → b < a + n → a % n = b % n → a = b := by
    intro a b hab hb he
    have h5 := Nat.sub_mod_eq_zero_of_mod_eq he.symm
    rw [Nat.mod_eq_of_lt (by omega)] at h5
    omega
  rcases Nat.le_total q q' with h6 | h6
  · exact key h6 (by omega) h
  · exact (key h6 (by omega) h.symm).symm

/-- **C06 (`next_index`).** For every buffer size except 0 and every valid index (no bound on the size), the
computed index is the mathematical successor modulo the size. -/
theorem nextIndex_exact {arg max : SizeT} (h : arg.toNat < max.toNat) :
    ∃ res, nextIndex arg max = some res ∧ NextLoop max (arg + 1) res ∧
      res.toNat = (arg.toNat + 1) % max.toNat ∧ res.toNat < max.toNat := by
  have h0 : max ≠ 0 := by rintro rfl; simp at h
  have h1 : nextIndex arg max = some ((arg + 1) % max) := by rw [nextIndex, if_neg h0]
  refine ⟨_, h1, (nextIndex_spec _ _ _).2 h1, ?_, ?_⟩
  · rw [BitVec.toNat_umod, BitVec.toNat_add]
    have := max.isLt
    simp
    rw [Nat.mod_eq_of_lt (a := arg.toNat + 1) (by omega)]
  · rw [BitVec.toNat_umod]; exact Nat.mod_lt _ (by omega)

/-- **C06 (`read_available`).** If `w` and `r` are the positions modulo `max` of a writer that is `d < max`
elements ahead of the reader, the computed value is `d`, in spite of unsigned wrap-around. -/
theorem readAvail_exact {w r max : SizeT} {c d : Nat} (hd : d < max.toNat)
    (hr : r.toNat = c % max.toNat) (hw : w.toNat = (c + d) % max.toNat) : (readAvail w r max).toNat = d := by
  have h1 := mod_add (c := c) (Nat.le_of_lt hd) (by omega)
  have h2 : c % max.toNat < max.toNat := Nat.mod_lt _ (by omega)
  have := max.isLt
  have := w.isLt
  have := r.isLt
  rw [← hw, ← hr] at h1
  rw [← hr] at h2
  unfold readAvail
  split
  · rename_i h
    have h : r.toNat ≤ w.toNat := by simpa [BitVec.le_def] using h
    rw [BitVec.toNat_sub]
    split at h1 <;> omega
  · rename_i h
    have h : w.toNat < r.toNat := by simpa [BitVec.le_def] using h
    rw [BitVec.toNat_sub, BitVec.toNat_add]
    split at h1 <;> omega

/-- **C06 (`write_available`).** In the same situation the computed value is `max - 1 - d`. -/
theorem writeAvail_exact {w r max : SizeT} {c d : Nat} (hd : d < max.toNat)
    (hr : r.toNat = c % max.toNat) (hw : w.toNat = (c + d) % max.toNat) :
    (writeAvail w r max).toNat = max.toNat - 1 - d := by
  have h1 := mod_add (c := c) (Nat.le_of_lt hd) (by omega)
  have h2 : c % max.toNat < max.toNat := Nat.mod_lt _ (by omega)
  have := max.isLt
  have := w.isLt
  have := r.isLt
  rw [← hw, ← hr] at h1
  rw [← hr] at h2
  unfold writeAvail
  split
  · rename_i h
    have h : r.toNat ≤ w.toNat := by simpa [BitVec.le_def] using h
    rw [BitVec.toNat_add, BitVec.toNat_sub, BitVec.toNat_sub]
    simp
    split at h1 <;> omega
  · rename_i h
    have h : w.toNat < r.toNat := by simpa [BitVec.le_def] using h
    rw [BitVec.toNat_sub, BitVec.toNat_sub]
    simp
    split at h1 <;> omega

/-- **C06.** For all valid indices of any buffer, the two availabilities add up to the capacity `max - 1`, both
as machine words and as numbers. -/
theorem avail_sum {w r max : SizeT} (hw : w.toNat < max.toNat) (hr : r.toNat < max.toNat) :
    (readAvail w r max).toNat + (writeAvail w r max).toNat = max.toNat - 1 ∧
    (readAvail w r max).toNat < max.toNat ∧
    (w.toNat = (r.toNat + (readAvail w r max).toNat) % max.toNat) := by
  obtain ⟨d, hd, hwd⟩ : ∃ d, d < max.toNat ∧ w.toNat = (r.toNat + d) % max.toNat := by
    by_cases h : r.toNat ≤ w.toNat
    · exact ⟨w.toNat - r.toNat, by omega, by
        rw [show r.toNat + (w.toNat - r.toNat) = w.toNat by omega, Nat.mod_eq_of_lt hw]⟩
    · refine ⟨w.toNat + max.toNat - r.toNat, by omega, ?_⟩
      rw [show r.toNat + (w.toNat + max.toNat - r.toNat) = w.toNat + max.toNat by omega, Nat.add_mod_right,
        Nat.mod_eq_of_lt hw]
  have hr' : r.toNat = r.toNat % max.toNat := (Nat.mod_eq_of_lt hr).symm
  have h1 := readAvail_exact hd hr' hwd
  have h2 := writeAvail_exact hd hr' hwd
  rw [h1, h2]
  exact ⟨by omega, hd, hwd⟩

/-! ### C13: constructor argument -/

/-- **C13.** For every `n < SIZE_MAX` the buffer has `n + 1` slots, so the capacity `max - 1` is `n`; for
`n = SIZE_MAX` the size wraps to 0 and the loop of `next_index` never ends. -/
theorem bufferSize_spec (n : SizeT) :
    (n.toNat < 2 ^ 64 - 1 → (bufferSize n).toNat = n.toNat + 1) ∧
    (n.toNat = 2 ^ 64 - 1 → bufferSize n = 0 ∧ ∀ arg res, ¬ NextLoop (bufferSize n) (arg + 1) res) := by
  constructor
  · intro h
    simp only [bufferSize, BitVec.toNat_add]
    simp
    omega
  · intro h
    have h0 : bufferSize n = 0 := by
      apply BitVec.eq_of_toNat_eq
      simp only [bufferSize, BitVec.toNat_add, h]
      decide
    refine ⟨h0, fun arg res hl => ?_⟩
    exact hl.spec.1 h0

/-- Concrete values: sizes 5 and 2^64 - 1, including both kinds of wrap-around. -/
example : nextIndex 4 5 = some 0 ∧ nextIndex 2 5 = some 3 ∧ readAvail 1 4 5 = 2 ∧ readAvail 4 1 5 = 3 ∧
    writeAvail 1 4 5 = 2 ∧ writeAvail 4 1 5 = 1 ∧ writeAvail 0 0 5 = 4 ∧
    nextIndex (BitVec.ofNat 64 (2^64 - 2)) (BitVec.ofNat 64 (2^64 - 1)) = some 0 := by decide

end Verif.Spsc
