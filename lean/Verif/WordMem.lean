import Verif.Words

/-!
# Nodes and freelist as stored words (C51)

The models of stack and queue use pairs of a handle (`Option Nat`) and a tag (`Nat`). `Stack/WordModel` and `Queue/WordModel`
state the same algorithms once more on the words the code stores and compares (`tagged_ptr`, `tagged_index`); this file contains
the part common to both: nodes and freelist. The simulation theorems transfer what was proved for the pairs.
-/

namespace Verif
open Lin

/-- How a container represents its handles: the words, the number of tag values and the representation of a tag given as a
number, whether the pool has a fixed size, the link word of a node whose memory was filled with zeros (freelist.hpp:58, 72, 181),
and the number of nodes for which there are handles: allocation of further nodes fails. -/
structure Rep where
  K : Words
  M : Nat
  encT : Nat → K.T
  fixed : Bool
  zero : K.W
  limit : Nat

def Rep.cfg (R : Rep) : Cfg := ⟨R.M, R.fixed⟩

/-- The words represent handles of all nodes, null and the tags without loss, and zeroed memory is a null handle with tag 0 (for
fixed-size pools the handle of zeroed memory is not used: freelist.hpp:410 stores one). -/
structure Rep.Faithful (R : Rep) : Prop where
  pos : 0 < R.M
  words : R.K.Faithful R.M (· < R.limit) R.encT
  zero_tag : R.K.tag R.zero = R.encT 0
  zero_null : R.fixed = false → R.zero = R.K.pack (R.K.hnd none) (R.encT 0)

/-- A word together with the ghost version of the object it was read from. -/
structure SSnap (K : Words) where
  v : K.W
  ver : Nat

/-- Nodes and freelist: link word and payload of every node, `pool_`; ghost versions as in `Heap`. -/
structure SMem (K : Words) (α : Type) where
  next : Nat → K.W
  nver : Nat → Nat
  data : Nat → Option α
  nalloc : Nat
  pool : K.W
  poolVer : Nat

variable {α O : Type}

def SMem.poolSnap {K : Words} (m : SMem K α) : SSnap K := ⟨m.pool, m.poolVer⟩

/-- `set_ptr` / `set_index` on the link word of node `n` (tagged_ptr_dcas.hpp:91-94, tagged_ptr_ptrcompression.hpp:116-120,
freelist.hpp:293-296): the tag part is kept. -/
def SMem.setLink {K : Words} (m : SMem K α) (n : Nat) (p : K.H) : SMem K α :=
  { m with next := upd m.next n (K.pack p (K.tag (m.next n))) }

def SMem.setData {K : Words} (m : SMem K α) (n : Nat) (d : Option α) : SMem K α := { m with data := upd m.data n d }

/-- `Alloc::allocate(1)` and `memset(0)` (freelist.hpp:57-58, 71-72, 180-181). -/
def SMem.malloc (R : Rep) (m : SMem R.K α) : SMem R.K α :=
  { m with
    nalloc := m.nalloc + 1
    next := upd m.next m.nalloc R.zero
    nver := upd m.nver m.nalloc 0
    data := upd m.data m.nalloc none }

/-- Resolution of nondeterminism, as in `Choice` and `QChoice`; a racing read of a link or of a payload returns any handle, word or
value whatsoever. -/
inductive SChoice (K : Words) (O α : Type) where
  | call (o : O)
  | go
  | spur
  | throw
  | racy (x : K.H)
  | garbage (v : α)
  | torn (w : K.W)

/-- The corresponding choice of the machines on pairs. -/
def SChoice.base {K : Words} : SChoice K O α → Choice O
  | .call o => .call o
  | .spur => .spur
  | .throw => .throw
  | .racy _ => .racy none
  | _ => .go

/-- Local variables of `allocate_impl` (freelist.hpp:173-195, 543-560). -/
inductive SAPC (K : Words) where
  | load
  | test (o : SSnap K)
  | cas (o : SSnap K) (nx : K.H)

inductive SARes (K : Words) where
  | more (a : SAPC K)
  | got (n : Nat)
  | null
  | badAlloc

/-- One step of `allocate_impl<Bounded>` (freelist.hpp:173-195, 543-560). -/
def saStep (R : Rep) (bounded : Bool) (m : SMem R.K α) : SAPC R.K → SChoice R.K O α → Option (SMem R.K α × SARes R.K)
  | .load, .go => some (m, .more (.test m.poolSnap))
  | .test o, c =>
    match R.K.node (R.K.ptr o.v) with
    | none =>
      if R.fixed || bounded then
        match c with
        | .go => some (m, .null)
        | _ => none
      else
        match c with
        | .go => if m.nalloc < R.limit then some (m.malloc R, .got m.nalloc) else none
        | .throw => some (m, .badAlloc)
        | _ => none
    | some n =>
      match c with
      | .go => some (m, .more (.cas o (R.K.ptr (m.next n))))
      | .racy x => if m.poolVer = o.ver then none else some (m, .more (.cas o x))
      | _ => none
  | .cas o nx, .go =>
    if m.pool = o.v then
      match R.K.node (R.K.ptr o.v) with
      | none => none
      | some n =>
        some ({ m with pool := R.K.pack nx (R.K.next (R.K.tag o.v)), poolVer := m.poolVer + 1 }, .got n)
    else some (m, .more (.test m.poolSnap))
  | .cas _ _, .spur => some (m, .more (.test m.poolSnap))
  | _, _ => none

/-- The tag of `pool_` has not wrapped completely since `old_pool` was loaded. -/
def saFresh (R : Rep) (m : SMem R.K α) : SAPC R.K → Prop
  | .cas o _ => m.poolVer < o.ver + R.M
  | _ => True

/-- Local variables of `deallocate_impl` (freelist.hpp:230-243, 588-600). -/
inductive SDPC (K : Words) where
  | load
  | set (o : SSnap K)
  | cas (o : SSnap K)

/-- One step of `deallocate_impl(n)` (freelist.hpp:230-243, 588-600). -/
def sdStep (R : Rep) (m : SMem R.K α) (n : Nat) : SDPC R.K → SChoice R.K O α → Option (SMem R.K α × Option (SDPC R.K))
  | .load, .go => some (m, some (.set m.poolSnap))
  | .set o, .go => some (m.setLink n (R.K.ptr o.v), some (.cas o))
  | .cas o, .go =>
    if m.pool = o.v then some ({ m with pool := R.K.pack (R.K.hnd (some n)) (R.K.tag o.v) }, none)
    else some (m, some (.set m.poolSnap))
  | .cas _, .spur => some (m, some (.set m.poolSnap))
  | _, _ => none

/-- `deallocate_impl_unsafe(n)` (freelist.hpp:245-255, 602-611). -/
def SMem.deallocUnsafe (R : Rep) (m : SMem R.K α) (n : Nat) : SMem R.K α :=
  { m.setLink n (R.K.ptr m.pool) with pool := R.K.pack (R.K.hnd (some n)) (R.K.tag m.pool) }

/-- The constructors of the freelists (freelist.hpp:52-65, 405-430): `pool_` is a null handle with tag 0; `n` nodes are obtained and
pushed on the freelist. -/
def SMem.initial (R : Rep) : Nat → SMem R.K α
  | 0 =>
    { next := fun _ => R.zero, nver := fun _ => 0, data := fun _ => none, nalloc := 0,
      pool := R.K.pack (R.K.hnd none) (R.encT 0), poolVer := 0 }
  | k + 1 =>
    let m := SMem.initial R k
    (m.malloc R).deallocUnsafe R m.nalloc

/-! ### Correspondence -/

variable {R : Rep}

def Rep.enc (R : Rep) (v : Tagged) : R.K.W := R.K.enc R.encT v

/-- A word of the model whose handle is null or one of the first `N` nodes. -/
abbrev Rep.Ok (R : Rep) (N : Nat) (v : Tagged) : Prop := v.Ok R.M (· < N)

theorem okPtr.mono {N N' : Nat} (hN : N ≤ N') {p : Option Nat} (h : okPtr (· < N) p) : okPtr (· < N') p :=
  fun n hn => Nat.lt_of_lt_of_le (h n hn) hN

theorem Rep.Ok.mono {N N' : Nat} {v : Tagged} (h : R.Ok N v) (hN : N ≤ N') : R.Ok N' v := ⟨okPtr.mono hN h.1, h.2⟩

theorem Rep.Faithful.eq_iff (hf : R.Faithful) {v w : Tagged} (hv : R.Ok R.limit v) (hw : R.Ok R.limit w) :
    R.enc v = R.enc w ↔ v = w := hf.words.enc_eq_iff hv hw

theorem Rep.Faithful.node (hf : R.Faithful) {v : Tagged} (hv : R.Ok R.limit v) : R.K.node (R.K.ptr (R.enc v)) = v.ptr :=
  hf.words.node_enc hv

theorem Rep.Faithful.ptr (hf : R.Faithful) {v : Tagged} (hv : R.Ok R.limit v) : R.K.ptr (R.enc v) = R.K.hnd v.ptr :=
  hf.words.ptr_enc hv

theorem Rep.Faithful.tag (hf : R.Faithful) (v : Tagged) : R.K.tag (R.enc v) = R.encT v.tag := hf.words.tag_enc v

theorem Rep.Faithful.nextTag (hf : R.Faithful) {v : Tagged} {N : Nat} (hv : R.Ok N v) :
    R.K.next (R.K.tag (R.enc v)) = R.encT (R.cfg.nextTag v.tag) := by
  rw [hf.tag, hf.words.next_tag _ hv.2]; rfl

theorem Rep.Faithful.node_hnd (hf : R.Faithful) {p : Option Nat} {N : Nat} (hp : okPtr (· < N) p) (hN : N ≤ R.limit) :
    R.K.node (R.K.hnd p) = p := hf.words.node_hnd p (okPtr.mono hN hp)

theorem Rep.Faithful.nextTag_lt (hf : R.Faithful) (t : Nat) : R.cfg.nextTag t < R.M := Nat.mod_lt _ hf.pos

theorem okPtr.none {ok : Nat → Prop} : okPtr ok none := by rintro _ ⟨⟩

theorem okPtr.some {ok : Nat → Prop} {n : Nat} (h : ok n) : okPtr ok (some n) := by rintro _ ⟨⟩; exact h

/-- A snapshot on both sides: of the first `N` nodes, taken at version `c` or earlier. -/
structure SnapRel (R : Rep) (N c : Nat) (o : Snap) (w : SSnap R.K) : Prop where
  val : w.v = R.enc o.v
  ver : w.ver = o.ver
  ok : R.Ok N o.v
  le : o.ver ≤ c
  tag : o.v.tag = o.ver % R.M

theorem SnapRel.mono {N N' c c' : Nat} {o : Snap} {w : SSnap R.K} (h : SnapRel R N c o w) (hN : N ≤ N') (hc : c ≤ c') :
    SnapRel R N' c' o w := ⟨h.val, h.ver, h.ok.mono hN, Nat.le_trans h.le hc, h.tag⟩

/-- A word that has not wrapped its tag since the snapshot, and is equal to it, has not changed. -/
theorem SnapRel.current {N c : Nat} {o : Snap} {w : SSnap R.K} (h : SnapRel R N c o w) {v : Tagged} (hv : v.tag = c % R.M)
    (he : v = o.v) (hfr : c < o.ver + R.M) : o.ver = c := by
  have h1 := h.le
  have h2 := h.tag
  rw [← he, hv] at h2
  have h3 : (c - o.ver) % R.M = 0 := by
    have := Nat.sub_mod_eq_zero_of_mod_eq h2
    exact this
  rw [Nat.mod_eq_of_lt (by omega)] at h3
  omega

/-- A handle read from a link, unless the read was out of date. -/
def NxRel (R : Rep) (N : Nat) (stale : Prop) (nx : Option Nat) (x : R.K.H) : Prop :=
  (okPtr (· < N) nx ∧ x = R.K.hnd nx) ∨ stale

theorem NxRel.mono {N N' : Nat} {p q : Prop} {nx : Option Nat} {x : R.K.H} (h : NxRel R N p nx x) (hN : N ≤ N') (hp : p → q) :
    NxRel R N' q nx x := h.imp (fun h => ⟨okPtr.mono hN h.1, h.2⟩) hp

/-- Nodes and freelist on both sides. -/
structure MemRel (R : Rep) (h : Heap α) (m : SMem R.K α) : Prop where
  next : ∀ n < h.nalloc, m.next n = R.enc (h.next n)
  nver : m.nver = h.nver
  data : m.data = h.data
  nalloc : m.nalloc = h.nalloc
  pool : m.pool = R.enc h.pool
  poolVer : m.poolVer = h.poolVer
  okNext : ∀ n < h.nalloc, R.Ok h.nalloc (h.next n)
  okPool : R.Ok h.nalloc h.pool
  tag : h.pool.tag = h.poolVer % R.M
  limit : h.nalloc ≤ R.limit

theorem MemRel.poolSnap {h : Heap α} {m : SMem R.K α} (hm : MemRel R h m) : SnapRel R h.nalloc h.poolVer h.poolSnap m.poolSnap :=
  ⟨hm.pool, hm.poolVer, hm.okPool, Nat.le_refl _, hm.tag⟩

theorem MemRel.setData {h : Heap α} {m : SMem R.K α} (hm : MemRel R h m) (n : Nat) (d : Option α) :
    MemRel R (h.setData n d) (m.setData n d) :=
  { hm with data := by simp [Heap.setData, SMem.setData, hm.data] }

/-- A write of a link word. -/
theorem MemRel.setNext {h : Heap α} {m : SMem R.K α} (hm : MemRel R h m) {n : Nat} {v : Tagged} (hv : R.Ok h.nalloc v) (f : Nat → Nat) :
    MemRel R { h with next := upd h.next n v, nver := f } { m with next := upd m.next n (R.enc v), nver := f } := by
  refine { hm with next := fun k hk => ?_, nver := rfl, okNext := fun k hk => ?_ }
  · by_cases hkn : k = n
    · subst hkn; simp
    · simp [upd_ne _ _ _ hkn, hm.next k hk]
  · by_cases hkn : k = n
    · subst hkn; simpa using hv
    · simpa [upd_ne _ _ _ hkn] using hm.okNext k hk

theorem MemRel.setLink (hf : R.Faithful) {h : Heap α} {m : SMem R.K α} (hm : MemRel R h m) {n : Nat} (hn : n < h.nalloc)
    {p : Option Nat} (hp : okPtr (· < h.nalloc) p) : MemRel R (h.setNextPtr n p) (m.setLink n (R.K.hnd p)) := by
  have h1 := hm.setNext (n := n) (v := ⟨p, (h.next n).tag⟩) ⟨hp, (hm.okNext n hn).2⟩ h.nver
  have h2 : R.enc ⟨p, (h.next n).tag⟩ = R.K.pack (R.K.hnd p) (R.K.tag (m.next n)) := by
    rw [hm.next n hn, hf.tag]; rfl
  rw [h2] at h1
  have h3 : ({ m with next := upd m.next n (R.K.pack (R.K.hnd p) (R.K.tag (m.next n))), nver := h.nver } : SMem R.K α) =
      m.setLink n (R.K.hnd p) := by
    simp [SMem.setLink, ← hm.nver]
  rw [h3] at h1
  exact h1

theorem MemRel.malloc {h : Heap α} {m : SMem R.K α} (hm : MemRel R h m) (hf : R.Faithful) (hfx : R.fixed = false)
    (hl : m.nalloc < R.limit) : MemRel R h.malloc (m.malloc R) := by
  have hl' : h.nalloc < R.limit := hm.nalloc ▸ hl
  have h0 : R.Ok (h.nalloc + 1) ⟨none, 0⟩ := ⟨okPtr.none, hf.pos⟩
  constructor
  · intro k hk
    simp only [Heap.malloc] at hk
    simp only [Heap.malloc, SMem.malloc, hm.nalloc]
    by_cases hkn : k = h.nalloc
    · subst hkn; simp [hf.zero_null hfx]; rfl
    · simp [upd_ne _ _ _ hkn, hm.next k (by omega)]
  · simp [Heap.malloc, SMem.malloc, hm.nalloc, hm.nver]
  · simp [Heap.malloc, SMem.malloc, hm.nalloc, hm.data]
  · simp [Heap.malloc, SMem.malloc, hm.nalloc]
  · exact hm.pool
  · exact hm.poolVer
  · intro k hk
    simp only [Heap.malloc] at hk ⊢
    by_cases hkn : k = h.nalloc
    · subst hkn; simpa using h0
    · simpa [upd_ne _ _ _ hkn] using (hm.okNext k (by omega)).mono (by omega)
  · exact hm.okPool.mono (by simp [Heap.malloc])
  · exact hm.tag
  · exact hl'

/-- `deallocate` of a new node, whose link word has any handle and tag 0. -/
theorem MemRel.addNode {h : Heap α} {m : SMem R.K α} (hm : MemRel R h m) (hf : R.Faithful) (hl : m.nalloc < R.limit) :
    MemRel R (h.malloc.deallocUnsafe h.nalloc) ((m.malloc R).deallocUnsafe R m.nalloc) := by
  have hl' : h.nalloc < R.limit := hm.nalloc ▸ hl
  have h1 : R.Ok (h.nalloc + 1) ⟨h.pool.ptr, 0⟩ := ⟨(hm.okPool.mono (by omega)).1, hf.pos⟩
  have h2 : R.K.ptr m.pool = R.K.hnd h.pool.ptr := by rw [hm.pool, hf.ptr (hm.okPool.mono hm.limit)]
  constructor
  · intro k hk
    simp only [Heap.malloc, Heap.deallocUnsafe, Heap.setNextPtr] at hk
    simp only [Heap.malloc, SMem.malloc, Heap.deallocUnsafe, SMem.deallocUnsafe, Heap.setNextPtr, SMem.setLink, hm.nalloc, h2]
    by_cases hkn : k = h.nalloc
    · subst hkn; simp [hf.zero_tag]; rfl
    · simp [upd_ne _ _ _ hkn, hm.next k (by omega)]
  · simp [Heap.malloc, SMem.malloc, hm.nalloc, hm.nver, Heap.deallocUnsafe, SMem.deallocUnsafe, Heap.setNextPtr, SMem.setLink]
  · simp [Heap.malloc, SMem.malloc, hm.nalloc, hm.data, Heap.deallocUnsafe, SMem.deallocUnsafe, Heap.setNextPtr, SMem.setLink]
  · simp [Heap.malloc, SMem.malloc, hm.nalloc, Heap.deallocUnsafe, SMem.deallocUnsafe, Heap.setNextPtr, SMem.setLink]
  · simp only [Heap.malloc, SMem.malloc, Heap.deallocUnsafe, SMem.deallocUnsafe, Heap.setNextPtr, SMem.setLink, hm.nalloc, hm.pool, hf.tag]
    rfl
  · exact hm.poolVer
  · intro k hk
    simp only [Heap.malloc, Heap.deallocUnsafe, Heap.setNextPtr] at hk ⊢
    by_cases hkn : k = h.nalloc
    · subst hkn; simpa using h1
    · simpa [upd_ne _ _ _ hkn] using (hm.okNext k (by omega)).mono (by omega)
  · exact ⟨okPtr.some (by simp [Heap.malloc, Heap.deallocUnsafe, Heap.setNextPtr]), hm.okPool.2⟩
  · exact hm.tag
  · exact hl'

/-- After construction. -/
theorem MemRel.initial (hf : R.Faithful) {n : Nat} (hn : n ≤ R.limit) :
    MemRel R (Heap.initial n : Heap α) (SMem.initial R n) ∧ (SMem.initial R n : SMem R.K α).nalloc = n := by
  induction n with
  | zero =>
    refine ⟨⟨nofun, rfl, rfl, rfl, rfl, rfl, nofun, ⟨okPtr.none, hf.pos⟩, ?_, Nat.zero_le _⟩, rfl⟩
    simp [Heap.initial, Heap.addNodes, Heap.empty]
  | succ n ih =>
    obtain ⟨h1, h2⟩ := ih (by omega)
    exact ⟨h1.addNode hf (by omega), by simp [SMem.initial, SMem.deallocUnsafe, SMem.setLink, SMem.malloc, h2]⟩

/-! ### Steps of the freelist -/

def ARel (R : Rep) (N c : Nat) : APC → SAPC R.K → Prop
  | .load, .load => True
  | .test o, .test w => SnapRel R N c o w
  | .cas o nx, .cas w x => SnapRel R N c o w ∧ NxRel R N (o.ver < c) nx x
  | _, _ => False

theorem ARel.mono {N N' c c' : Nat} {a : APC} {b : SAPC R.K} (h : ARel R N c a b) (hN : N ≤ N') (hc : c ≤ c') :
    ARel R N' c' a b := by
  cases a <;> cases b <;> simp only [ARel] at h ⊢
  · exact h.mono hN hc
  · exact ⟨h.1.mono hN hc, h.2.mono hN fun h => Nat.lt_of_lt_of_le h hc⟩

def AResRel (R : Rep) (N c : Nat) : ARes → SARes R.K → Prop
  | .more a, .more b => ARel R N c a b
  | .got n, .got k => n = k ∧ n < N
  | .null, .null => True
  | .badAlloc, .badAlloc => True
  | _, _ => False

/-- How a step may change the freelist. -/
def Grows (h h' : Heap α) : Prop := h.nalloc ≤ h'.nalloc ∧ h.poolVer ≤ h'.poolVer

theorem Grows.refl (h : Heap α) : Grows h h := ⟨Nat.le_refl _, Nat.le_refl _⟩

theorem saFresh.fresh {h : Heap α} {m : SMem R.K α} (hm : MemRel R h m) {a : APC} {b : SAPC R.K}
    (ha : ARel R h.nalloc h.poolVer a b) (hfr : saFresh R m b) : aFresh R.cfg h a := by
  cases a <;> cases b <;> simp only [ARel, aFresh, saFresh] at ha hfr ⊢
  rw [hm.poolVer, ha.1.ver] at hfr
  exact .inr hfr

/-- Every step of `allocate` on words is a step on pairs. -/
theorem saStep_sim (hf : R.Faithful) {h : Heap α} {m m' : SMem R.K α} (hm : MemRel R h m) {a : APC} {b : SAPC R.K}
    (ha : ARel R h.nalloc h.poolVer a b) (hfr : saFresh R m b) {bd : Bool} {ch : SChoice R.K O α} {r' : SARes R.K}
    (hs : saStep R bd m b ch = some (m', r')) :
    ∃ h' r, aStep R.cfg bd h a ch.base = some (h', r) ∧ MemRel R h' m' ∧ Grows h h' ∧ AResRel R h'.nalloc h'.poolVer r r' := by
  cases a with
  | load =>
    cases b <;> simp only [ARel] at ha
    cases ch <;> simp [saStep] at hs
    obtain ⟨rfl, rfl⟩ := hs
    exact ⟨h, _, rfl, hm, .refl _, hm.poolSnap⟩
  | test o =>
    cases b <;> simp only [ARel] at ha
    rename_i w
    have h1 : R.K.node (R.K.ptr w.v) = o.v.ptr := by rw [ha.val, hf.node (ha.ok.mono hm.limit)]
    simp only [saStep, h1] at hs
    cases ho : o.v.ptr with
    | none =>
      simp only [ho] at hs
      by_cases hb : (R.fixed || bd) = true
      · simp only [hb, if_true] at hs
        cases ch <;> simp at hs
        obtain ⟨rfl, rfl⟩ := hs
        exact ⟨h, .null, by simp [aStep, ho, Rep.cfg, hb, SChoice.base], hm, .refl _, trivial⟩
      · simp only [hb] at hs
        have hfx : R.fixed = false := by cases hr : R.fixed <;> simp_all
        cases ch <;> simp at hs
        · obtain ⟨hl, rfl, rfl⟩ := hs
          refine ⟨h.malloc, .got h.nalloc, by simp [aStep, ho, Rep.cfg, hb, SChoice.base], hm.malloc hf hfx hl,
            ⟨Nat.le_succ _, Nat.le_refl _⟩, hm.nalloc.symm, Nat.lt_succ_self _⟩
        · obtain ⟨rfl, rfl⟩ := hs
          exact ⟨h, .badAlloc, by simp [aStep, ho, Rep.cfg, hb, SChoice.base], hm, .refl _, trivial⟩
    | some n =>
      simp only [ho] at hs
      have hn : n < h.nalloc := ha.ok.1 n ho
      cases ch <;> simp at hs
      · obtain ⟨rfl, rfl⟩ := hs
        refine ⟨h, .more (.cas o (h.next n).ptr), by simp [aStep, ho, SChoice.base], hm, .refl _, ha, .inl ⟨(hm.okNext n hn).1, ?_⟩⟩
        rw [hm.next n hn, hf.ptr ((hm.okNext n hn).mono hm.limit)]
      · obtain ⟨hv, rfl, rfl⟩ := hs
        rw [hm.poolVer, ha.ver] at hv
        refine ⟨h, .more (.cas o none), by simp [aStep, ho, SChoice.base, hv], hm, .refl _, ha, .inr ?_⟩
        have := ha.le
        omega
  | cas o nx =>
    cases b <;> simp only [ARel] at ha
    rename_i w x
    obtain ⟨ha, hx⟩ := ha
    have h1 : R.K.node (R.K.ptr w.v) = o.v.ptr := by rw [ha.val, hf.node (ha.ok.mono hm.limit)]
    have h2 : m.pool = w.v ↔ h.pool = o.v := by
      rw [hm.pool, ha.val]; exact hf.eq_iff (hm.okPool.mono hm.limit) (ha.ok.mono hm.limit)
    simp only [saFresh, hm.poolVer, ha.ver] at hfr
    cases ch <;> simp only [saStep, reduceCtorEq] at hs
    · split at hs
      · rename_i h3
        rw [h2] at h3
        rw [h1] at hs
        cases ho : o.v.ptr with
        | none => simp [ho] at hs
        | some n =>
          simp [ho] at hs
          obtain ⟨rfl, rfl⟩ := hs
          have h4 := ha.current hm.tag h3 hfr
          have h5 : okPtr (· < h.nalloc) nx ∧ x = R.K.hnd nx := hx.resolve_right (by omega)
          refine ⟨{ h with pool := ⟨nx, R.cfg.nextTag o.v.tag⟩, poolVer := h.poolVer + 1 }, .got n,
            by simp [aStep, ho, SChoice.base, h3], ?_, ⟨Nat.le_refl _, Nat.le_succ _⟩, rfl, ha.ok.1 n ho⟩
          refine { hm with pool := ?_, poolVer := ?_, okPool := ⟨h5.1, hf.nextTag_lt _⟩, tag := ?_ }
          · simp only [ha.val, hf.nextTag ha.ok, h5.2]; rfl
          · simp [hm.poolVer]
          · show (o.v.tag + 1) % R.M = (h.poolVer + 1) % R.M
            rw [← h3, hm.tag]; simp
      · rename_i h3
        rw [h2] at h3
        simp at hs
        obtain ⟨rfl, rfl⟩ := hs
        exact ⟨h, .more (.test h.poolSnap), by simp [aStep, SChoice.base, h3], hm, .refl _, hm.poolSnap⟩
    · simp at hs
      obtain ⟨rfl, rfl⟩ := hs
      exact ⟨h, .more (.test h.poolSnap), by simp [aStep, SChoice.base], hm, .refl _, hm.poolSnap⟩

def DRel (R : Rep) (N c : Nat) : DPC → SDPC R.K → Prop
  | .load, .load => True
  | .set o, .set w => SnapRel R N c o w
  | .cas o, .cas w => SnapRel R N c o w
  | _, _ => False

theorem DRel.mono {N N' c c' : Nat} {a : DPC} {b : SDPC R.K} (h : DRel R N c a b) (hN : N ≤ N') (hc : c ≤ c') :
    DRel R N' c' a b := by
  cases a <;> cases b <;> simp only [DRel] at h ⊢
  · exact h.mono hN hc
  · exact h.mono hN hc

def DResRel (R : Rep) (N c : Nat) : Option DPC → Option (SDPC R.K) → Prop
  | some a, some b => DRel R N c a b
  | none, none => True
  | _, _ => False

/-- Every step of `deallocate` on words is a step on pairs. -/
theorem sdStep_sim (hf : R.Faithful) {h : Heap α} {m m' : SMem R.K α} (hm : MemRel R h m) {n : Nat} (hn : n < h.nalloc)
    {a : DPC} {b : SDPC R.K} (ha : DRel R h.nalloc h.poolVer a b) {ch : SChoice R.K O α} {r' : Option (SDPC R.K)}
    (hs : sdStep R m n b ch = some (m', r')) :
    ∃ h' r, dStep h n a ch.base = some (h', r) ∧ MemRel R h' m' ∧ Grows h h' ∧ DResRel R h'.nalloc h'.poolVer r r' := by
  cases a with
  | load =>
    cases b <;> simp only [DRel] at ha
    cases ch <;> simp [sdStep] at hs
    obtain ⟨rfl, rfl⟩ := hs
    exact ⟨h, _, rfl, hm, .refl _, hm.poolSnap⟩
  | set o =>
    cases b <;> simp only [DRel] at ha
    rename_i w
    cases ch <;> simp [sdStep] at hs
    obtain ⟨rfl, rfl⟩ := hs
    refine ⟨h.setNextPtr n o.v.ptr, some (.cas o), rfl, ?_, .refl _, ha⟩
    rw [ha.val, hf.ptr (ha.ok.mono hm.limit)]
    exact hm.setLink hf hn ha.ok.1
  | cas o =>
    cases b <;> simp only [DRel] at ha
    rename_i w
    have h2 : m.pool = w.v ↔ h.pool = o.v := by
      rw [hm.pool, ha.val]; exact hf.eq_iff (hm.okPool.mono hm.limit) (ha.ok.mono hm.limit)
    cases ch <;> simp only [sdStep, reduceCtorEq] at hs
    · split at hs
      · rename_i h3
        rw [h2] at h3
        simp at hs
        obtain ⟨rfl, rfl⟩ := hs
        refine ⟨{ h with pool := ⟨some n, o.v.tag⟩ }, none, by simp [dStep, SChoice.base, h3], ?_, .refl _, trivial⟩
        refine { hm with pool := ?_, okPool := ⟨okPtr.some hn, ha.ok.2⟩, tag := ?_ }
        · simp only [ha.val, hf.tag]; rfl
        · show o.v.tag = _
          rw [← h3, hm.tag]
      · rename_i h3
        rw [h2] at h3
        simp at hs
        obtain ⟨rfl, rfl⟩ := hs
        exact ⟨h, some (.set h.poolSnap), by simp [dStep, SChoice.base, h3], hm, .refl _, hm.poolSnap⟩
    · simp at hs
      obtain ⟨rfl, rfl⟩ := hs
      exact ⟨h, some (.set h.poolSnap), by simp [dStep, SChoice.base], hm, .refl _, hm.poolSnap⟩

/-! ### Enabledness -/

/-- If `allocate` on pairs can make an ordinary step, so can `allocate` on words. -/
theorem saStep_enabled (hf : R.Faithful) {b : Bool} {h : Heap α} {m : SMem R.K α} (hm : MemRel R h m) {a : APC} {a' : SAPC R.K}
    (ha : ARel R h.nalloc h.poolVer a a') (hroom : R.fixed = true ∨ h.nalloc < R.limit) {x}
    (hx : aStep R.cfg b h a (Choice.go : Choice O) = some x) : ∃ y, saStep R b m a' (SChoice.go : SChoice R.K O α) = some y := by
  have hL := hm.limit
  cases a <;> cases a' <;> simp only [ARel] at ha
  · exact ⟨_, rfl⟩
  · simp only [saStep]
    split
    · split
      · exact ⟨_, rfl⟩
      · rename_i h1 h2
        rcases hroom with h3 | h3
        · simp [h3] at h2
        · simp [hm.nalloc, h3]
    · exact ⟨_, rfl⟩
  · simp only [saStep]
    split
    · rename_i he
      rw [hm.pool, ha.1.val, hf.eq_iff (hm.okPool.mono hL) (ha.1.ok.mono hL)] at he
      simp only [aStep, he, if_true] at hx
      rw [ha.1.val, hf.node (ha.1.ok.mono hL)]
      split
      · rename_i h1; simp [h1] at hx
      · exact ⟨_, rfl⟩
    · exact ⟨_, rfl⟩

theorem sdStep_enabled (R : Rep) (m : SMem R.K α) (n : Nat) (d : SDPC R.K) :
    ∃ y, sdStep R m n d (SChoice.go : SChoice R.K O α) = some y := by
  cases d <;> simp only [sdStep]
  · exact ⟨_, rfl⟩
  · exact ⟨_, rfl⟩
  · split <;> exact ⟨_, rfl⟩

end Verif
