import Verif.Tagged
import Verif.HeapObs

/-!
# The freelist on the representations of tagged handles (C33, C34)

The models of stack, queue and freelist use pairs of a handle (`Option Nat`) and a tag (`Nat`). Here the two freelists are written
once more, for words as they are stored, and shown to take the same steps.
-/

namespace Verif
open Lin

/-- A type of words holding a handle and a tag, with the interface common to `tagged_ptr` and `tagged_index`. `node` is `get_pointer`:
the node a handle refers to. -/
structure Words where
  W : Type
  H : Type
  T : Type
  decW : DecidableEq W
  decH : DecidableEq H
  pack : H → T → W
  ptr : W → H
  tag : W → T
  next : T → T
  node : H → Option Nat
  hnd : Option Nat → H

attribute [instance] Words.decW Words.decH

/-- Words represent pairs of a handle to one of the nodes `ok` (or null) and a tag below `M` without loss. -/
structure Words.Faithful (K : Words) (M : Nat) (ok : Nat → Prop) (encT : Nat → K.T) : Prop where
  ptr_pack : ∀ (p : Option Nat) t, (∀ n, p = some n → ok n) → K.ptr (K.pack (K.hnd p) t) = K.hnd p
  tag_pack : ∀ h t, K.tag (K.pack h t) = t
  node_hnd : ∀ p : Option Nat, (∀ n, p = some n → ok n) → K.node (K.hnd p) = p
  tag_inj : ∀ t u, t < M → u < M → encT t = encT u → t = u
  next_tag : ∀ t, t < M → K.next (encT t) = encT ((t + 1) % M)

/-- A handle to one of the nodes `ok`, or null. -/
def okPtr (ok : Nat → Prop) (p : Option Nat) : Prop := ∀ n, p = some n → ok n

/-- A word of the model that can be represented. -/
def Tagged.Ok (M : Nat) (ok : Nat → Prop) (v : Tagged) : Prop := okPtr ok v.ptr ∧ v.tag < M

/-- The representation of a word of the model. -/
def Words.enc (K : Words) (encT : Nat → K.T) (v : Tagged) : K.W := K.pack (K.hnd v.ptr) (encT v.tag)

variable {K : Words} {M : Nat} {ok : Nat → Prop} {encT : Nat → K.T}

/-- **C33, C34.** Two words of the model are equal exactly if their representations are: a compare-exchange on the representation
succeeds exactly if the one of the model does. -/
theorem Words.Faithful.enc_eq_iff (hf : K.Faithful M ok encT) {v w : Tagged} (hv : v.Ok M ok) (hw : w.Ok M ok) :
    K.enc encT v = K.enc encT w ↔ v = w := by
  constructor
  · intro h
    have h1 : K.hnd v.ptr = K.hnd w.ptr := by
      rw [← hf.ptr_pack v.ptr (encT v.tag) hv.1, ← hf.ptr_pack w.ptr (encT w.tag) hw.1]
      exact congrArg K.ptr h
    have h2 : encT v.tag = encT w.tag := by
      rw [← hf.tag_pack (K.hnd v.ptr) (encT v.tag), ← hf.tag_pack (K.hnd w.ptr) (encT w.tag)]
      exact congrArg K.tag h
    have h3 : v.ptr = w.ptr := by rw [← hf.node_hnd v.ptr hv.1, ← hf.node_hnd w.ptr hw.1, h1]
    have h4 := hf.tag_inj _ _ hv.2 hw.2 h2
    cases v; cases w; simp_all
  · rintro rfl; rfl

/-! ### The freelists on words -/

/-- The freelist as stored: `pool_` and the link word of every node. -/
structure WHeap (K : Words) where
  next : Nat → K.W
  pool : K.W

/-- Local variables of `allocate_impl` (freelist.hpp:173-195, 543-560). -/
inductive WAPC (K : Words) where
  | load
  | test (old : K.W)
  | cas (old : K.W) (nx : K.H)

inductive WARes (K : Words) where
  | more (a : WAPC K)
  | got (n : Nat)
  /-- null and, for the unbounded freelist, memory is requested -/
  | null

/-- Steps of `allocate_impl` up to the null test (freelist.hpp:175-190, 545-557). -/
def wAlloc (K : Words) (h : WHeap K) : WAPC K → Option (WHeap K × WARes K)
  | .load => some (h, .more (.test h.pool))
  | .test old =>
    match K.node (K.ptr old) with
    | none => some (h, .null)
    | some n => some (h, .more (.cas old (K.ptr (h.next n))))
  | .cas old nx =>
    if h.pool = old then
      match K.node (K.ptr old) with
      | none => none
      | some n => some ({ h with pool := K.pack nx (K.next (K.tag old)) }, .got n)
    else some (h, .more (.test h.pool))

/-- Local variables of `deallocate_impl` (freelist.hpp:230-243, 588-600). -/
inductive WDPC (K : Words) where
  | load
  | set (old : K.W)
  | cas (old : K.W)

/-- Steps of `deallocate_impl`; `set_ptr` / `set_index` keeps the tag of the link word. -/
def wFree (K : Words) (h : WHeap K) (n : Nat) : WDPC K → WHeap K × Option (WDPC K)
  | .load => (h, some (.set h.pool))
  | .set old => ({ h with next := upd h.next n (K.pack (K.ptr old) (K.tag (h.next n))) }, some (.cas old))
  | .cas old =>
    if h.pool = old then ({ h with pool := K.pack (K.hnd (some n)) (K.tag old) }, none)
    else (h, some (.set h.pool))

/-! ### Correspondence -/

variable {α Op : Type}

/-- The link words and `pool_` of the model, all representable. -/
def Heap.Ok (M : Nat) (ok : Nat → Prop) (h : Heap α) : Prop := h.pool.Ok M ok ∧ ∀ n, ok n → (h.next n).Ok M ok

/-- What is stored for a freelist of the model. -/
structure Stored (K : Words) (encT : Nat → K.T) (ok : Nat → Prop) (h : Heap α) (w : WHeap K) : Prop where
  pool : w.pool = K.enc encT h.pool
  next : ∀ n, ok n → w.next n = K.enc encT (h.next n)

def APC.Ok (M : Nat) (ok : Nat → Prop) : APC → Prop
  | .load => True
  | .test o => o.v.Ok M ok
  | .cas o nx => o.v.Ok M ok ∧ okPtr ok nx

def encA (K : Words) (encT : Nat → K.T) : APC → WAPC K
  | .load => .load
  | .test o => .test (K.enc encT o.v)
  | .cas o nx => .cas (K.enc encT o.v) (K.hnd nx)

def encARes (K : Words) (encT : Nat → K.T) : ARes → WARes K
  | .more a => .more (encA K encT a)
  | .got n => .got n
  | .null => .null
  | .badAlloc => .null

theorem Words.Faithful.node_enc (hf : K.Faithful M ok encT) {v : Tagged} (hv : v.Ok M ok) :
    K.node (K.ptr (K.enc encT v)) = v.ptr := by
  rw [Words.enc, hf.ptr_pack _ _ hv.1, hf.node_hnd _ hv.1]

theorem Words.Faithful.ptr_enc (hf : K.Faithful M ok encT) {v : Tagged} (hv : v.Ok M ok) :
    K.ptr (K.enc encT v) = K.hnd v.ptr := hf.ptr_pack _ _ hv.1

theorem Words.Faithful.tag_enc (hf : K.Faithful M ok encT) (v : Tagged) : K.tag (K.enc encT v) = encT v.tag :=
  hf.tag_pack _ _

/-- **C33, C34 (allocation).** Every step of `allocate` of the model, other than the request for new memory, is the step of the code
on stored words; what is stored remains representable. -/
theorem wAlloc_corresponds {b f : Bool} {h h' : Heap α} {w : WHeap K} {a : APC} {r : ARes} (hf : K.Faithful M ok encT)
    (hM : 0 < M) (hk : h.Ok M ok) (hs : Stored K encT ok h w) (ha : a.Ok M ok) (hb : f = true ∨ b = true)
    (hst : aStep (Op := Op) ⟨M, f⟩ b h a .go = some (h', r)) :
    ∃ w', wAlloc K w (encA K encT a) = some (w', encARes K encT r) ∧ Stored K encT ok h' w' ∧ h'.Ok M ok ∧
      ∀ a', r = .more a' → a'.Ok M ok := by
  cases a with
  | load =>
    simp [aStep] at hst
    obtain ⟨rfl, rfl⟩ := hst
    refine ⟨w, ?_, hs, hk, ?_⟩
    · simp [wAlloc, encA, encARes, hs.pool, Heap.poolSnap]
    · rintro a' ⟨⟩; exact hk.1
  | test o =>
    have h1 := hf.node_enc ha
    cases ho : o.v.ptr with
    | none =>
      have h2 : (f || b) = true := by simpa using hb
      simp only [aStep, ho, h2] at hst
      simp at hst
      obtain ⟨rfl, rfl⟩ := hst
      refine ⟨w, ?_, hs, hk, by rintro _ ⟨⟩⟩
      simp [wAlloc, encA, encARes, h1, ho]
    | some n =>
      simp only [aStep, ho] at hst
      simp at hst
      obtain ⟨rfl, rfl⟩ := hst
      have h2 := ha.1 n ho
      refine ⟨w, ?_, hs, hk, ?_⟩
      · simp [wAlloc, encA, encARes, h1, ho, hs.next n h2, hf.ptr_enc (hk.2 n h2)]
      · rintro a' ⟨⟩; exact ⟨ha, (hk.2 n h2).1⟩
  | cas o nx =>
    have h1 := hf.node_enc ha.1
    have h2 := hf.enc_eq_iff hk.1 ha.1
    simp only [aStep] at hst
    split at hst
    · rename_i h3
      cases ho : o.v.ptr with
      | none => simp [ho] at hst
      | some n =>
        simp [ho] at hst
        obtain ⟨rfl, rfl⟩ := hst
        refine ⟨{ w with pool := K.enc encT ⟨nx, Cfg.nextTag ⟨M, f⟩ o.v.tag⟩ }, ?_, ⟨rfl, hs.next⟩, ⟨⟨ha.2, Nat.mod_lt _ hM⟩, hk.2⟩,
          by rintro _ ⟨⟩⟩
        simp [wAlloc, encA, encARes, hs.pool, h2.2 h3, h1, ho, hf.tag_enc, hf.next_tag _ ha.1.2]
        rfl
    · rename_i h3
      simp at hst
      obtain ⟨rfl, rfl⟩ := hst
      refine ⟨w, ?_, hs, hk, ?_⟩
      · simp [wAlloc, encA, encARes, hs.pool, h2, h3, Heap.poolSnap]
      · rintro a' ⟨⟩; exact hk.1

def DPC.Ok (M : Nat) (ok : Nat → Prop) : DPC → Prop
  | .load => True
  | .set o | .cas o => o.v.Ok M ok

def encD (K : Words) (encT : Nat → K.T) : DPC → WDPC K
  | .load => .load
  | .set o => .set (K.enc encT o.v)
  | .cas o => .cas (K.enc encT o.v)

/-- **C33, C34 (deallocation).** Every step of `deallocate` of the model is the step of the code on stored words. -/
theorem wFree_corresponds {h h' : Heap α} {w : WHeap K} {n : Nat} {d : DPC} {r : Option DPC} (hf : K.Faithful M ok encT)
    (hk : h.Ok M ok) (hs : Stored K encT ok h w) (hn : ok n) (hd : d.Ok M ok)
    (hst : dStep (Op := Op) h n d .go = some (h', r)) :
    ∃ w', wFree K w n (encD K encT d) = (w', r.map (encD K encT)) ∧ Stored K encT ok h' w' ∧ h'.Ok M ok ∧
      ∀ d', r = some d' → d'.Ok M ok := by
  cases d with
  | load =>
    simp [dStep] at hst
    obtain ⟨rfl, rfl⟩ := hst
    exact ⟨w, by simp [wFree, encD, hs.pool, Heap.poolSnap], hs, hk, by rintro _ ⟨⟩; exact hk.1⟩
  | set o =>
    simp [dStep] at hst
    obtain ⟨rfl, rfl⟩ := hst
    have h1 : (⟨o.v.ptr, (h.next n).tag⟩ : Tagged).Ok M ok := ⟨hd.1, (hk.2 n hn).2⟩
    refine ⟨{ w with next := upd w.next n (K.enc encT ⟨o.v.ptr, (h.next n).tag⟩) }, ?_, ⟨hs.pool, fun m hm => ?_⟩,
      ⟨hk.1, fun m hm => ?_⟩, by rintro _ ⟨⟩; exact hd⟩
    · simp [wFree, encD, hf.ptr_enc hd, hs.next n hn, hf.tag_enc]
      rfl
    · by_cases hmn : m = n
      · subst hmn; simp [Heap.setNextPtr]
      · simp [Heap.setNextPtr, upd_ne _ _ _ hmn, hs.next m hm]
    · by_cases hmn : m = n
      · subst hmn; simpa [Heap.setNextPtr] using h1
      · simpa [Heap.setNextPtr, upd_ne _ _ _ hmn] using hk.2 m hm
  | cas o =>
    have h2 := hf.enc_eq_iff hk.1 hd
    simp only [dStep] at hst
    split at hst
    · rename_i h3
      simp at hst
      obtain ⟨rfl, rfl⟩ := hst
      refine ⟨{ w with pool := K.enc encT ⟨some n, o.v.tag⟩ }, ?_, ⟨rfl, hs.next⟩, ⟨⟨by rintro m ⟨⟩; exact hn, hd.2⟩, hk.2⟩,
        by rintro _ ⟨⟩⟩
      simp [wFree, encD, hs.pool, h2.2 h3, hf.tag_enc]
      rfl
    · rename_i h3
      simp at hst
      obtain ⟨rfl, rfl⟩ := hst
      exact ⟨w, by simp [wFree, encD, hs.pool, h2, h3, Heap.poolSnap], hs, hk, by rintro _ ⟨⟩; exact hk.1⟩

/-! ### The three representations -/

/-- `tagged_index` in a freelist of `count` nodes (freelist.hpp:260-331; `null_handle` 496-499, `get_handle` 501-507, `get_pointer`
519-525): the null handle is the index `count`. -/
def indexWords (count : Nat) : Words where
  W := Pair 16 16
  H := BitVec 16
  T := BitVec 16
  decW := inferInstance
  decH := inferInstance
  pack := fun p t => ⟨p, t⟩
  ptr := Pair.ptr
  tag := Pair.tag
  next := nextTag 32
  node := fun i => if i = BitVec.ofNat 16 count then none else some i.toNat
  hnd := fun p => BitVec.ofNat 16 (p.getD count)

/-- Compressed `tagged_ptr` (tagged_ptr_ptrcompression.hpp), node `n` being at address `addr n`. -/
def compressedWords (e : Endian) (addr : Nat → BitVec 64) (nodeAt : BitVec 64 → Nat) : Words where
  W := BitVec 64
  H := BitVec 64
  T := BitVec 16
  decW := inferInstance
  decH := inferInstance
  pack := packPtr e
  ptr := extractPtr
  tag := extractTag e
  next := nextTag 32
  node := fun p => if p = 0#64 then none else some (nodeAt p)
  hnd := fun p => (p.map addr).getD 0#64

/-- Uncompressed `tagged_ptr` (tagged_ptr_dcas.hpp), 64-bit machine. -/
def dcasWords (addr : Nat → BitVec 64) (nodeAt : BitVec 64 → Nat) : Words where
  W := Pair 64 64
  H := BitVec 64
  T := BitVec 64
  decW := inferInstance
  decH := inferInstance
  pack := fun p t => ⟨p, t⟩
  ptr := Pair.ptr
  tag := Pair.tag
  next := nextTag 64
  node := fun p => if p = 0#64 then none else some (nodeAt p)
  hnd := fun p => (p.map addr).getD 0#64

theorem ofNat_tag_inj {w : Nat} (t u : Nat) (ht : t < 2 ^ w) (hu : u < 2 ^ w) (h : BitVec.ofNat w t = BitVec.ofNat w u) :
    t = u := by
  have := congrArg BitVec.toNat h
  simpa [Nat.mod_eq_of_lt, ht, hu] using this

theorem nextTag_ofNat {W w : Nat} (h : w ≤ W) (t : Nat) (_ : t < 2 ^ w) :
    nextTag W (BitVec.ofNat w t) = BitVec.ofNat w ((t + 1) % 2 ^ w) := by
  rw [nextTag_eq h]
  apply BitVec.eq_of_toNat_eq
  simp [BitVec.toNat_add]

/-- **C33.** With at most 65535 nodes, tagged indices represent all nodes, the null handle and all tags without loss. -/
theorem indexWords_faithful {count : Nat} (hc : count ≤ 65535) :
    (indexWords count).Faithful (2 ^ 16) (· < count) (BitVec.ofNat 16) where
  ptr_pack _ _ _ := rfl
  tag_pack _ _ := rfl
  node_hnd p hp := by
    cases p with
    | none => simp [indexWords]
    | some n =>
      have h1 := hp n rfl
      have h2 : BitVec.ofNat 16 n ≠ BitVec.ofNat 16 count := by
        intro h; have := congrArg BitVec.toNat h; simp at this; omega
      have h3 : n % 65536 = n := Nat.mod_eq_of_lt (by omega)
      simp [indexWords, h2, h3]
  tag_inj := ofNat_tag_inj
  next_tag := nextTag_ofNat (W := 32) (w := 16) (by decide)

/-- **C33 (the limit is needed).** With 65536 nodes the null handle would be the index of node 0. -/
theorem indexWords_limit : (indexWords 65536).hnd none = (indexWords 65536).hnd (some 0) := by
  show BitVec.ofNat 16 65536 = BitVec.ofNat 16 0
  decide

/-- **C33 (the limit is needed).** With any greater number of nodes two nodes, or a node and null, have the same handle. -/
theorem indexWords_unfaithful {count : Nat} (hc : 65535 < count) :
    ¬ (indexWords count).Faithful (2 ^ 16) (· < count) (BitVec.ofNat 16) := by
  intro hf
  obtain ⟨k, rfl⟩ : ∃ k, count = k + 65536 := ⟨count - 65536, by omega⟩
  have h1 := hf.node_hnd (some k) (fun n hn => by rw [Option.some.injEq] at hn; omega)
  have h2 := hf.node_hnd none (fun n hn => by simp at hn)
  have h3 : (indexWords (k + 65536)).hnd none = (indexWords (k + 65536)).hnd (some k) := by
    apply BitVec.eq_of_toNat_eq
    simp [indexWords]
  rw [h3, h1] at h2
  simp at h2

/-- **C34.** On a little-endian machine, compressed pointers represent nodes at different addresses below `2^48` other than null, the
null pointer and all 16-bit tags without loss. -/
theorem compressedWords_faithful {addr : Nat → BitVec 64} {nodeAt : BitVec 64 → Nat} {ok : Nat → Prop}
    (h48 : ∀ n, ok n → Fits (addr n)) (h0 : ∀ n, ok n → addr n ≠ 0#64) (hinv : ∀ n, ok n → nodeAt (addr n) = n) :
    (compressedWords .little addr nodeAt).Faithful (2 ^ 16) ok (BitVec.ofNat 16) where
  ptr_pack p t hp := by
    refine (Verif.ptr_pack _ _).2 ?_
    cases p with
    | none => simp [compressedWords, Fits]
    | some n => simpa [compressedWords] using h48 n (hp n rfl)
  tag_pack _ _ := Verif.tag_pack _ _
  node_hnd p hp := by
    cases p with
    | none => simp [compressedWords]
    | some n => simp [compressedWords, h0 n (hp n rfl), hinv n (hp n rfl)]
  tag_inj := ofNat_tag_inj
  next_tag := nextTag_ofNat (W := 32) (w := 16) (by decide)

/-- **C34.** Uncompressed tagged pointers represent any addresses and all 64-bit tags without loss. -/
theorem dcasWords_faithful {addr : Nat → BitVec 64} {nodeAt : BitVec 64 → Nat} {ok : Nat → Prop}
    (h0 : ∀ n, ok n → addr n ≠ 0#64) (hinv : ∀ n, ok n → nodeAt (addr n) = n) :
    (dcasWords addr nodeAt).Faithful (2 ^ 64) ok (BitVec.ofNat 64) where
  ptr_pack _ _ _ := rfl
  tag_pack _ _ := rfl
  node_hnd p hp := by
    cases p with
    | none => simp [dcasWords]
    | some n => simp [dcasWords, h0 n (hp n rfl), hinv n (hp n rfl)]
  tag_inj := ofNat_tag_inj
  next_tag := nextTag_ofNat (W := 64) (w := 64) (by decide)

end Verif
