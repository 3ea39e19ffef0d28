import Verif.Heap
import Mathlib.Logic.Function.Iterate

/-!
# Representations of tagged handles (C34, C35)

Bit-level models of `tagged_ptr` (tagged_ptr_ptrcompression.hpp:22-163, tagged_ptr_dcas.hpp:20-137) and `tagged_index`
(freelist.hpp:260-331). `tagged_ptr.hpp` chooses the compressed one where `BOOST_LOCKFREE_PTR_COMPRESSION` is defined
(prefix.hpp:26-28).
-/

namespace Verif

/-! ### Tags -/

/-- `get_next_tag` for a tag type of `w` bits computed in an unsigned type of `W ≥ w` bits, then masked with the greatest tag and
converted back (tagged_ptr_ptrcompression.hpp:130-134 and freelist.hpp:306-310: `w = 16`, `W = 32`; tagged_ptr_dcas.hpp:104-108:
`w = W = 64`). -/
def nextTag (W : Nat) {w : Nat} (t : BitVec w) : BitVec w :=
  ((t.setWidth W + 1#W) &&& (BitVec.allOnes w).setWidth W).setWidth w

theorem nextTag_eq {W w : Nat} (h : w ≤ W) (t : BitVec w) : nextTag W t = t + 1#w := by
  apply BitVec.eq_of_toNat_eq
  unfold nextTag
  have h1 : (t.setWidth W + 1#W) &&& (BitVec.allOnes w).setWidth W = ((t.setWidth W + 1#W).setWidth w).setWidth W := by
    ext i hi
    simp only [BitVec.getElem_and, BitVec.getElem_setWidth, BitVec.getLsbD_setWidth, BitVec.getLsbD_allOnes]
    by_cases hw : i < w
    · simp [hw, BitVec.getLsbD_eq_getElem hi]
    · simp [hw]
  rw [h1]
  simp only [BitVec.toNat_setWidth, BitVec.toNat_add, BitVec.toNat_ofNat]
  have hd : 2 ^ w ∣ 2 ^ W := Nat.pow_dvd_pow 2 h
  simp [Nat.mod_mod_of_dvd, hd, Nat.add_mod]

/-- **C35.** `get_next_tag` is the increment modulo `2^w`, which is `Cfg.nextTag` of the model with `M = 2^w`. -/
theorem nextTag_toNat {W w : Nat} (h : w ≤ W) (t : BitVec w) (f : Bool) :
    (nextTag W t).toNat = Cfg.nextTag ⟨2 ^ w, f⟩ t.toNat := by
  rw [nextTag_eq h, Cfg.nextTag, BitVec.toNat_add]; simp [Nat.add_mod]

theorem nextTag_iterate {W w : Nat} (h : w ≤ W) (t : BitVec w) (k : Nat) : (nextTag W)^[k] t = t + BitVec.ofNat w k := by
  induction k with
  | zero => simp
  | succ k ih =>
    rw [Function.iterate_succ_apply', ih, nextTag_eq h, BitVec.add_assoc]
    congr 1
    apply BitVec.eq_of_toNat_eq
    simp [BitVec.toNat_add]

/-- **C35.** Starting from any tag, the `k`-th and the `j`-th following tag are equal exactly if `k` and `j` differ by a multiple of
`2^w`: all `2^w` tags are visited before one is repeated. -/
theorem nextTag_cycle {W w : Nat} (h : w ≤ W) (t : BitVec w) (j k : Nat) :
    (nextTag W)^[j] t = (nextTag W)^[k] t ↔ j % 2 ^ w = k % 2 ^ w := by
  rw [nextTag_iterate h, nextTag_iterate h, BitVec.add_right_inj, ← BitVec.toNat_inj]
  simp

/-- **C35.** Every tag is reached from every other one, in fewer than `2^w` increments. -/
theorem nextTag_reaches {W w : Nat} (h : w ≤ W) (t u : BitVec w) : ∃ k, k < 2 ^ w ∧ (nextTag W)^[k] t = u := by
  refine ⟨(u - t).toNat, BitVec.isLt _, ?_⟩
  rw [nextTag_iterate h, BitVec.ofNat_toNat, BitVec.setWidth_eq, BitVec.add_comm, BitVec.sub_add_cancel]

/-! ### Compressed pointers -/

/-- Byte order of the machine: which 16-bit part of a 64-bit word is `cast_unit::tag[k]` (tagged_ptr_ptrcompression.hpp:31-37).
Little endian: `tag[3]` is the upper part; big endian: `tag[3]` is the lowest part. -/
inductive Endian where
  | little
  | big

def Endian.shift : Endian → Nat → Nat
  | .little, k => 16 * k
  | .big, k => 16 * (3 - k)

/-- `tag_index` (line 38). -/
def tagIndex : Nat := 3

/-- `ptr_mask` (line 39). -/
def ptrMask : BitVec 64 := 0xffffffffffff#64

/-- Reading `cast_unit::tag[k]`. -/
def readPart (e : Endian) (v : BitVec 64) (k : Nat) : BitVec 16 := (v >>> e.shift k).setWidth 16

/-- Writing `cast_unit::tag[k]`. -/
def writePart (e : Endian) (v : BitVec 64) (k : Nat) (t : BitVec 16) : BitVec 64 :=
  (v &&& ~~~ (0xffff#64 <<< e.shift k)) ||| (t.setWidth 64 <<< e.shift k)

/-- `extract_ptr` (lines 41-44). -/
def extractPtr (v : BitVec 64) : BitVec 64 := v &&& ptrMask

/-- `extract_tag` (lines 46-51). -/
def extractTag (e : Endian) (v : BitVec 64) : BitVec 16 := readPart e v tagIndex

/-- `pack_ptr` (lines 53-59), also the constructor (79-81) and `set` (95-98). -/
def packPtr (e : Endian) (p : BitVec 64) (t : BitVec 16) : BitVec 64 := writePart e p tagIndex t

/-- `set_ptr` (lines 122-126). -/
def setPtr (e : Endian) (v p : BitVec 64) : BitVec 64 := packPtr e p (extractTag e v)

/-- `set_tag` (lines 142-146). -/
def setTag (e : Endian) (v : BitVec 64) (t : BitVec 16) : BitVec 64 := packPtr e (extractPtr v) t

/-- The pointer uses at most 48 bits. -/
def Fits (p : BitVec 64) : Prop := p.toNat < 2 ^ 48

theorem getLsbD_mask48 (i : Nat) : ptrMask.getLsbD i = decide (i < 48) := by
  have : ptrMask = (BitVec.allOnes 48).setWidth 64 := by decide
  rw [this, BitVec.getLsbD_setWidth, BitVec.getLsbD_allOnes]
  by_cases h : i < 48
  · simp [h]; omega
  · simp [h]

theorem getLsbD_mask16 (i : Nat) : (0xffff#64).getLsbD i = decide (i < 16) := by
  have : (0xffff#64) = (BitVec.allOnes 16).setWidth 64 := by decide
  rw [this, BitVec.getLsbD_setWidth, BitVec.getLsbD_allOnes]
  by_cases h : i < 16
  · simp [h]; omega
  · simp [h]

theorem packPtr_bit (p : BitVec 64) (t : BitVec 16) (i : Nat) :
    (packPtr .little p t).getLsbD i = if i < 48 then p.getLsbD i else t.getLsbD (i - 48) := by
  simp only [packPtr, writePart, Endian.shift, tagIndex, BitVec.getLsbD_or, BitVec.getLsbD_and, BitVec.getLsbD_not,
    BitVec.getLsbD_shiftLeft, BitVec.getLsbD_setWidth, getLsbD_mask16]
  by_cases h : i < 48
  · simp only [h, if_true]
    by_cases h2 : i < 64
    · simp [h2]
    · omega
  · simp only [h, if_false]
    by_cases h2 : i < 64
    · have h3 : i - 16 * 3 < 16 := by omega
      simp [h2, h3]
      intro; omega
    · have := BitVec.getLsbD_of_ge t (i - 48) (by omega)
      simp [h2, this]

theorem Fits.bit {p : BitVec 64} (h : Fits p) {i : Nat} (hi : 48 ≤ i) : p.getLsbD i = false := by
  rw [BitVec.getLsbD, Nat.testBit_lt_two_pow]
  exact Nat.lt_of_lt_of_le h (Nat.pow_le_pow_right (by omega) hi)

theorem fits_of_bits {p : BitVec 64} (h : ∀ i, 48 ≤ i → p.getLsbD i = false) : Fits p := by
  apply Nat.lt_pow_two_of_testBit
  exact h

theorem extractPtr_bit (v : BitVec 64) (i : Nat) : (extractPtr v).getLsbD i = (v.getLsbD i && decide (i < 48)) := by
  rw [extractPtr, BitVec.getLsbD_and, getLsbD_mask48]

theorem extractTag_bit (v : BitVec 64) (i : Nat) (hi : i < 16) : (extractTag .little v).getLsbD i = v.getLsbD (i + 48) := by
  simp [extractTag, readPart, Endian.shift, tagIndex, hi, Nat.add_comm]

/-- **C34.** Whatever pointer is packed, the tag is read back. -/
theorem tag_pack (p : BitVec 64) (t : BitVec 16) : extractTag .little (packPtr .little p t) = t := by
  apply BitVec.eq_of_getLsbD_eq
  intro i hi
  rw [extractTag_bit _ _ hi, packPtr_bit, if_neg (by omega), Nat.add_sub_cancel]

/-- **C34.** The pointer is read back if, and only if, it fits 48 bits. -/
theorem ptr_pack (p : BitVec 64) (t : BitVec 16) : extractPtr (packPtr .little p t) = p ↔ Fits p := by
  constructor
  · intro h
    apply fits_of_bits
    intro i hi
    rw [← h, extractPtr_bit]
    simp [Nat.not_lt.2 hi]
  · intro h
    apply BitVec.eq_of_getLsbD_eq
    intro i hi
    rw [extractPtr_bit, packPtr_bit]
    by_cases h2 : i < 48
    · simp [h2]
    · simp [h2, h.bit (Nat.not_lt.1 h2)]

/-- The pointer read always fits 48 bits. -/
theorem fits_extractPtr (v : BitVec 64) : Fits (extractPtr v) :=
  fits_of_bits fun i hi => by rw [extractPtr_bit]; simp [Nat.not_lt.2 hi]

/-- **C34.** A word is determined by the pointer and the tag read from it: comparing words (`operator==`, lines 103-106, and
`compare_exchange`) compares both. -/
theorem word_eq_iff (v w : BitVec 64) :
    v = w ↔ extractPtr v = extractPtr w ∧ extractTag .little v = extractTag .little w := by
  constructor
  · rintro rfl; exact ⟨rfl, rfl⟩
  · rintro ⟨h1, h2⟩
    apply BitVec.eq_of_getLsbD_eq
    intro i hi
    by_cases h : i < 48
    · have := congrArg (·.getLsbD i) h1
      simpa [extractPtr_bit, h] using this
    · have := congrArg (·.getLsbD (i - 48)) h2
      rw [extractTag_bit _ _ (by omega), extractTag_bit _ _ (by omega), Nat.sub_add_cancel (by omega)] at this
      exact this

/-- **C34.** `set_ptr` keeps the tag and sets the pointer. -/
theorem setPtr_spec (v p : BitVec 64) : extractTag .little (setPtr .little v p) = extractTag .little v ∧
    (Fits p → extractPtr (setPtr .little v p) = p) := ⟨tag_pack _ _, (ptr_pack _ _).2⟩

/-- **C34.** `set_tag` keeps the pointer and sets the tag. -/
theorem setTag_spec (v : BitVec 64) (t : BitVec 16) : extractPtr (setTag .little v t) = extractPtr v ∧
    extractTag .little (setTag .little v t) = t :=
  ⟨(ptr_pack _ _).2 (fits_extractPtr v), tag_pack _ _⟩

/-- **C34, C35.** Storing a pointer with the next tag of another word, as all compare-exchanges that remove a node do, does not
disturb the pointer, and the tag read back is the next one. -/
theorem pack_next (v p : BitVec 64) (hp : Fits p) :
    extractPtr (packPtr .little p (nextTag 32 (extractTag .little v))) = p ∧
    (extractTag .little (packPtr .little p (nextTag 32 (extractTag .little v)))).toNat = ((extractTag .little v).toNat + 1) % 2 ^ 16 :=
  ⟨(ptr_pack _ _).2 hp, by rw [tag_pack, nextTag_eq (by omega), BitVec.toNat_add]; simp⟩

/-- Two pointers that differ in the upper 16 bits only are confused, whatever the tags. -/
theorem pack_confuses (p q : BitVec 64) (t u : BitVec 16) (h : extractPtr p = extractPtr q) :
    extractPtr (packPtr .little p t) = extractPtr (packPtr .little q u) := by
  apply BitVec.eq_of_getLsbD_eq
  intro i hi
  have := congrArg (·.getLsbD i) h
  simp only [extractPtr_bit, packPtr_bit] at this ⊢
  by_cases h2 : i < 48
  · simpa [h2] using this
  · simp [h2]

/-- **C34 (big endian).** `prefix.hpp:26-28` selects compression for every 64-bit ARM, but on a big-endian machine `tag[3]` is the
lowest part of the word: the pointer read back has its lowest 16 bits replaced by the tag. -/
theorem ptr_pack_big (p : BitVec 64) (t : BitVec 16) :
    extractPtr (packPtr .big p t) = p ↔ Fits p ∧ p.setWidth 16 = t := by
  have hb : ∀ i, (packPtr .big p t).getLsbD i = if i < 16 then t.getLsbD i else p.getLsbD i := by
    intro i
    simp only [packPtr, writePart, Endian.shift, tagIndex, BitVec.getLsbD_or, BitVec.getLsbD_and, BitVec.getLsbD_not,
      BitVec.getLsbD_shiftLeft, BitVec.getLsbD_setWidth, getLsbD_mask16]
    by_cases h : i < 16
    · have : i < 64 := by omega
      simp [h, this]
    · have := BitVec.getLsbD_of_ge t i (by omega)
      by_cases h2 : i < 64
      · simp [h, this, h2]
      · have := BitVec.getLsbD_of_ge p i (by omega)
        simp_all
  constructor
  · intro h
    refine ⟨h ▸ fits_extractPtr _, ?_⟩
    apply BitVec.eq_of_getLsbD_eq
    intro i hi
    have := congrArg (·.getLsbD i) h
    simp only [extractPtr_bit, hb, hi, if_true, show i < 48 by omega, decide_true, Bool.and_true] at this
    rw [BitVec.getLsbD_setWidth, ← this]
    simp [hi]
  · rintro ⟨h1, rfl⟩
    apply BitVec.eq_of_getLsbD_eq
    intro i hi
    rw [extractPtr_bit, hb]
    by_cases h2 : i < 16
    · simp [h2, show i < 48 by omega]
    · by_cases h3 : i < 48
      · simp [h2, h3]
      · simp [h2, h3, h1.bit (Nat.not_lt.1 h3)]

/-- A user-space pointer with a tag, at both byte orders; a pointer with an upper bit set. -/
example : extractPtr (packPtr .little 0x7f0123456780#64 0xffff#16) = 0x7f0123456780#64 ∧
    extractPtr (packPtr .big 0x7f0123456780#64 0xffff#16) = 0x7f012345ffff#64 ∧
    extractPtr (packPtr .little 0xff007f0123456780#64 0xffff#16) = 0x7f0123456780#64 := by decide

/-! ### Pairs: `tagged_ptr` for double-width compare-exchange, and `tagged_index` -/

/-- `tagged_index` (freelist.hpp:260-331; `a = w = 16`) and the uncompressed `tagged_ptr` (tagged_ptr_dcas.hpp:20-137; `a = w = 64`):
two members. -/
structure Pair (a w : Nat) where
  ptr : BitVec a
  tag : BitVec w
deriving DecidableEq

/-- `set_index` (freelist.hpp:293-296), `set_ptr` (tagged_ptr_dcas.hpp:91-94). -/
def Pair.setPtr {a w : Nat} (x : Pair a w) (p : BitVec a) : Pair a w := { x with ptr := p }

/-- `operator==` (freelist.hpp:318-321, tagged_ptr_dcas.hpp:73-76). -/
def Pair.eq {a w : Nat} (x y : Pair a w) : Bool := x.ptr == y.ptr && x.tag == y.tag

/-- **C34.** `operator==` compares both members. -/
theorem Pair.eq_iff {a w : Nat} (x y : Pair a w) : x.eq y = true ↔ x = y := by
  obtain ⟨p, t⟩ := x; obtain ⟨q, u⟩ := y; simp [Pair.eq]

end Verif
