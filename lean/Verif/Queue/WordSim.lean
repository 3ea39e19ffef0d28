import Verif.Queue.WordModel
import Verif.Queue.Props

/-!
# Queue: the machine on words is simulated by the machine on pairs (C51)

No further code of /repo is modelled here.
-/

namespace Verif.Queue
open Lin

variable {α : Type} {R : Rep}

/-- The corresponding choice of the machine on pairs. What a racing read returns does not matter. -/
def choiceOf {K : Words} : SChoice K (Op α) α → QChoice α
  | .torn _ => .torn ⟨none, 0⟩
  | .garbage v => .garbage v
  | ch => .base ch.base

/-- Shared states that correspond to each other. -/
structure StRel (R : Rep) (s : St α) (w : SSt R.K α) : Prop where
  mem : MemRel R s.heap w.mem
  head : w.head = R.enc s.head
  headVer : w.headVer = s.headVer
  okHead : R.Ok s.heap.nalloc s.head
  tagHead : s.head.tag = s.headVer % R.M
  tail : w.tail = R.enc s.tail
  tailVer : w.tailVer = s.tailVer
  okTail : R.Ok s.heap.nalloc s.tail
  tagTail : s.tail.tag = s.tailVer % R.M

theorem StRel.headSnap {s : St α} {w : SSt R.K α} (h : StRel R s w) : SnapRel R s.heap.nalloc s.headVer s.headSnap w.headSnap :=
  ⟨h.head, h.headVer, h.okHead, Nat.le_refl _, h.tagHead⟩

theorem StRel.tailSnap {s : St α} {w : SSt R.K α} (h : StRel R s w) : SnapRel R s.heap.nalloc s.tailVer s.tailSnap w.tailSnap :=
  ⟨h.tail, h.tailVer, h.okTail, Nat.le_refl _, h.tagTail⟩

/-- A snapshot of a link word, unless the read was out of date. -/
def LinkRel (R : Rep) (N : Nat) (stale : Prop) (o : Snap) (w : SSnap R.K) : Prop :=
  w.ver = o.ver ∧ ((R.Ok N o.v ∧ w.v = R.enc o.v) ∨ stale)

theorem LinkRel.mono {N N' : Nat} {p q : Prop} {o : Snap} {w : SSnap R.K} (h : LinkRel R N p o w) (hN : N ≤ N') (hp : p → q) :
    LinkRel R N' q o w := ⟨h.1, h.2.imp (fun h => ⟨h.1.mono hN, h.2⟩) hp⟩

def TailK.Ok (N : Nat) : TailK → Prop
  | .retryPush n => n < N
  | _ => True

def FreeK.Ok (R : Rep) : FreeK α → Prop
  | .pop _ => True
  | .rsv _ => R.fixed = false

/-- Program counters that correspond to each other, in a state with `N` nodes in which `pool_`, `head_` and `tail_` are at versions
`pv`, `hv` and `tv`. -/
inductive PCRel (R : Rep) (N pv hv tv : Nat) : PC α → SPC R.K α → Prop where
  | idle : PCRel R N pv hv tv .idle .idle
  | alloc (b v) {a a'} : ARel R N pv a a' → PCRel R N pv hv tv (.alloc b v a) (.alloc b v a')
  | constr (b v) {n} : n < N → PCRel R N pv hv tv (.constr b v n) (.constr b v n)
  | nload (b v) {n} : n < N → PCRel R N pv hv tv (.nload b v n) (.nload b v n)
  | nstore (b v) {n o o'} : n < N → R.Ok N o → o' = R.enc o → PCRel R N pv hv tv (.nstore b v n o) (.nstore b v n o')
  | pTail {n} : n < N → PCRel R N pv hv tv (.pTail n) (.pTail n)
  | pNext {n T T'} : n < N → SnapRel R N tv T T' → PCRel R N pv hv tv (.pNext n T) (.pNext n T')
  | pCheck {n T T' L L'} : n < N → SnapRel R N tv T T' → LinkRel R N (T.ver < tv) L L' →
      PCRel R N pv hv tv (.pCheck n T L) (.pCheck n T' L')
  | pCas {n T T' L L'} : n < N → SnapRel R N tv T T' → LinkRel R N False L L' →
      PCRel R N pv hv tv (.pCas n T L) (.pCas n T' L')
  | swing {k T T' y} : TailK.Ok N k → SnapRel R N tv T T' → y < N →
      PCRel R N pv hv tv (.swing k T y) (.swing k T' (R.K.hnd (some y)))
  | cHead : PCRel R N pv hv tv .cHead .cHead
  | cTail {H H'} : SnapRel R N hv H H' → PCRel R N pv hv tv (.cTail H) (.cTail H')
  | cNext {H H' T T'} : SnapRel R N hv H H' → SnapRel R N tv T T' → PCRel R N pv hv tv (.cNext H T) (.cNext H' T')
  | cCheck {H H' T T' L L'} : SnapRel R N hv H H' → SnapRel R N tv T T' → LinkRel R N (H.ver < hv) L L' →
      PCRel R N pv hv tv (.cCheck H T L) (.cCheck H' T' L')
  | cData {H H' y} : SnapRel R N hv H H' → y < N → PCRel R N pv hv tv (.cData H y) (.cData H' y (R.K.hnd (some y)))
  | cCas (v) {H H' y} : SnapRel R N hv H H' → y < N → PCRel R N pv hv tv (.cCas H y v) (.cCas H' (R.K.hnd (some y)) v)
  | cDestroy (v) {n} : n < N → PCRel R N pv hv tv (.cDestroy n v) (.cDestroy n v)
  | free {k n d d'} : FreeK.Ok R k → n < N → DRel R N pv d d' → PCRel R N pv hv tv (.free k n d) (.free k n d')
  | eHead : PCRel R N pv hv tv .eHead .eHead
  | eTail {H H'} : SnapRel R N hv H H' → PCRel R N pv hv tv (.eTail H) (.eTail H')
  | eHead2 {T T'} : SnapRel R N tv T T' → PCRel R N pv hv tv (.eHead2 T) (.eHead2 T')
  | rsv (k) : R.fixed = false → PCRel R N pv hv tv (.rsv k) (.rsv k)
  | ret (r) : PCRel R N pv hv tv (.ret r) (.ret r)
  | err : PCRel R N pv hv tv .err .err

section
variable {N N' pv pv' hv hv' tv tv' : Nat}

theorem TailK.Ok.mono {k : TailK} (h : k.Ok N) (hN : N ≤ N') : k.Ok N' := by
  cases k with
  | retryPush n => exact Nat.lt_of_lt_of_le h hN
  | _ => trivial

theorem PCRel.mono {p : PC α} {q : SPC R.K α} (h : PCRel R N pv hv tv p q) (hN : N ≤ N') (hpv : pv ≤ pv') (hhv : hv ≤ hv')
    (htv : tv ≤ tv') : PCRel R N' pv' hv' tv' p q := by
  have lt : ∀ {n}, n < N → n < N' := fun h => Nat.lt_of_lt_of_le h hN
  cases h with
  | idle => exact .idle
  | alloc b v h1 => exact .alloc b v (h1.mono hN hpv)
  | constr b v h1 => exact .constr b v (lt h1)
  | nload b v h1 => exact .nload b v (lt h1)
  | nstore b v h1 h2 h3 => exact .nstore b v (lt h1) (h2.mono hN) h3
  | pTail h1 => exact .pTail (lt h1)
  | pNext h1 h2 => exact .pNext (lt h1) (h2.mono hN htv)
  | pCheck h1 h2 h3 => exact .pCheck (lt h1) (h2.mono hN htv) (h3.mono hN fun h => Nat.lt_of_lt_of_le h htv)
  | pCas h1 h2 h3 => exact .pCas (lt h1) (h2.mono hN htv) (h3.mono hN id)
  | swing h1 h2 h3 => exact .swing (h1.mono hN) (h2.mono hN htv) (lt h3)
  | cHead => exact .cHead
  | cTail h1 => exact .cTail (h1.mono hN hhv)
  | cNext h1 h2 => exact .cNext (h1.mono hN hhv) (h2.mono hN htv)
  | cCheck h1 h2 h3 => exact .cCheck (h1.mono hN hhv) (h2.mono hN htv) (h3.mono hN fun h => Nat.lt_of_lt_of_le h hhv)
  | cData h1 h2 => exact .cData (h1.mono hN hhv) (lt h2)
  | cCas v h1 h2 => exact .cCas v (h1.mono hN hhv) (lt h2)
  | cDestroy v h1 => exact .cDestroy v (lt h1)
  | free h1 h2 h3 => exact .free h1 (lt h2) (h3.mono hN hpv)
  | eHead => exact .eHead
  | eTail h1 => exact .eTail (h1.mono hN hhv)
  | eHead2 h1 => exact .eHead2 (h1.mono hN htv)
  | rsv k h1 => exact .rsv k h1
  | ret r => exact .ret r
  | err => exact .err

end

/-- How a step may change the state. -/
def GrowsQ (s s' : St α) : Prop := Grows s.heap s'.heap ∧ s.headVer ≤ s'.headVer ∧ s.tailVer ≤ s'.tailVer

theorem GrowsQ.refl (s : St α) : GrowsQ s s := ⟨.refl _, Nat.le_refl _, Nat.le_refl _⟩

theorem GrowsQ.heap {s : St α} {h : Heap α} (hg : Grows s.heap h) : GrowsQ s { s with heap := h } :=
  ⟨hg, Nat.le_refl _, Nat.le_refl _⟩

theorem StRel.setMem {s : St α} {w : SSt R.K α} (h : StRel R s w) {h' : Heap α} {m' : SMem R.K α} (hm : MemRel R h' m')
    (hg : Grows s.heap h') : StRel R { s with heap := h' } { w with mem := m' } :=
  { h with mem := hm, okHead := h.okHead.mono hg.1, okTail := h.okTail.mono hg.1 }

/-- The relation of program counters in a state. -/
abbrev PCAt (R : Rep) (s : St α) (p : PC α) (q : SPC R.K α) : Prop := PCRel R s.heap.nalloc s.heap.poolVer s.headVer s.tailVer p q

theorem Rep.node_snap (hf : R.Faithful) {N c : Nat} {o : Snap} {w : SSnap R.K} (h : SnapRel R N c o w) (hN : N ≤ R.limit) :
    R.K.node (R.K.ptr w.v) = o.v.ptr := by rw [h.val, hf.node (h.ok.mono hN)]

theorem Rep.hnd_iff (hf : R.Faithful) {N : Nat} {p q : Option Nat} (hp : okPtr (· < N) p) (hq : okPtr (· < N) q) (hN : N ≤ R.limit) :
    R.K.hnd p = R.K.hnd q ↔ p = q :=
  ⟨fun h => by rw [← hf.node_hnd hp hN, h, hf.node_hnd hq hN], fun h => by rw [h]⟩

/-- Comparison of two handles taken from words. -/
theorem Rep.ptr_iff (hf : R.Faithful) {N : Nat} {v u : Tagged} (hv : R.Ok N v) (hu : R.Ok N u) (hN : N ≤ R.limit) :
    R.K.ptr (R.enc v) = R.K.ptr (R.enc u) ↔ v.ptr = u.ptr := by
  rw [hf.ptr (hv.mono hN), hf.ptr (hu.mono hN)]
  exact Rep.hnd_iff hf hv.1 hu.1 hN

theorem fresh_of (hf : R.Faithful) {s : St α} {w : SSt R.K α} (hs : StRel R s w) {p : PC α} {q : SPC R.K α} (hp : PCAt R s p q)
    (hfr : sfresh R w q) : fresh R.cfg s p := by
  cases hp with
  | alloc b v h1 => exact saFresh.fresh hs.mem h1 hfr
  | pCheck h1 h2 h3 => simp only [sfresh, hs.tailVer, h2.ver] at hfr; exact .inr hfr
  | pCas h1 h2 h3 =>
    simp only [sfresh, Rep.node_snap hf h2 hs.mem.limit, hs.mem.nver, h3.1] at hfr
    exact fun x hx => .inr (hfr x hx)
  | swing h1 h2 h3 => simp only [sfresh, hs.tailVer, h2.ver] at hfr; exact .inr hfr
  | cCheck h1 h2 h3 => simp only [sfresh, hs.headVer, h1.ver] at hfr; exact .inr hfr
  | cCas v h1 h2 => simp only [sfresh, hs.headVer, h1.ver] at hfr; exact .inr hfr
  | _ => trivial

theorem choiceOf_saStep {b : Bool} {m m' : SMem R.K α} {a : SAPC R.K} {ch : SChoice R.K (Op α) α} {r}
    (h : saStep R b m a ch = some (m', r)) : choiceOf ch = .base ch.base := by
  cases ch <;> first | rfl | (exfalso; revert h; cases a <;> simp [saStep] <;> split <;> (try split) <;> simp)

theorem choiceOf_sdStep {m m' : SMem R.K α} {n : Nat} {d : SDPC R.K} {ch : SChoice R.K (Op α) α} {r}
    (h : sdStep R m n d ch = some (m', r)) : choiceOf ch = .base ch.base := by
  cases ch <;> first | rfl | (exfalso; revert h; cases d <;> simp [sdStep])

theorem StRel.setHead (hf : R.Faithful) {s : St α} {w : SSt R.K α} (h : StRel R s w) {o : Snap} {o' : SSnap R.K}
    (ho : SnapRel R s.heap.nalloc s.headVer o o') (he : s.head = o.v) {y : Nat} (hy : y < s.heap.nalloc) :
    StRel R { s with head := ⟨some y, R.cfg.nextTag o.v.tag⟩, headVer := s.headVer + 1 }
      { w with head := R.K.pack (R.K.hnd (some y)) (R.K.next (R.K.tag o'.v)), headVer := w.headVer + 1 } := by
  refine { h with head := ?_, headVer := by simp [h.headVer], okHead := ⟨okPtr.some hy, hf.nextTag_lt _⟩, tagHead := ?_ }
  · simp only [ho.val, hf.nextTag ho.ok]; rfl
  · show (o.v.tag + 1) % R.M = (s.headVer + 1) % R.M
    rw [← he, h.tagHead]; simp

theorem StRel.swingTail (hf : R.Faithful) {s : St α} {w : SSt R.K α} (h : StRel R s w) {o : Snap} {o' : SSnap R.K}
    (ho : SnapRel R s.heap.nalloc s.tailVer o o') {y : Nat} (hy : y < s.heap.nalloc) :
    StRel R (s.swingTail R.cfg o y) (w.swingTail o' (R.K.hnd (some y))) ∧ GrowsQ s (s.swingTail R.cfg o y) := by
  have hL := h.mem.limit
  have h4 : w.tail = o'.v ↔ s.tail = o.v := by
    rw [h.tail, ho.val]; exact hf.eq_iff (h.okTail.mono hL) (ho.ok.mono hL)
  unfold St.swingTail SSt.swingTail
  by_cases he : s.tail = o.v
  · rw [if_pos he, if_pos (h4.2 he)]
    refine ⟨?_, .refl _, Nat.le_refl _, Nat.le_succ _⟩
    refine { h with tail := ?_, tailVer := by simp [h.tailVer], okTail := ⟨okPtr.some hy, hf.nextTag_lt _⟩, tagTail := ?_ }
    · simp only [ho.val, hf.nextTag ho.ok]; rfl
    · show (o.v.tag + 1) % R.M = (s.tailVer + 1) % R.M
      rw [← he, h.tagTail]; simp
  · rw [if_neg he, if_neg (fun h => he (h4.1 h))]
    exact ⟨h, .refl _⟩

theorem MemRel.linkSnap {s : St α} {w : SSt R.K α} (hm : MemRel R s.heap w.mem) {x : Nat} (hx : x < s.heap.nalloc) (p : Prop) :
    LinkRel R s.heap.nalloc p (s.nextSnap x) (w.nextSnap x) :=
  ⟨by simp [SSt.nextSnap, St.nextSnap, hm.nver], .inl ⟨hm.okNext x hx, hm.next x hx⟩⟩

/-- **Simulation of a step.** -/
theorem step_sim (hf : R.Faithful) {t : Nat} {s : St α} {w w' : SSt R.K α} (hs : StRel R s w) {p : PC α} {q q' : SPC R.K α}
    (hp : PCAt R s p q) {ch : SChoice R.K (Op α) α} {e} (hfr : sfresh R w q) (hst : ststep R t w q ch = some (w', q', e)) :
    ∃ s' p', tstep R.cfg t s p (choiceOf ch) = some (s', p', e) ∧ StRel R s' w' ∧ PCAt R s' p' q' ∧ GrowsQ s s' := by
  have hL := hs.mem.limit
  have same : ∀ {p' : PC α} {q' : SPC R.K α}, tstep R.cfg t s p (choiceOf ch) = some (s, p', e) → PCAt R s p' q' →
      ∃ s' p', tstep R.cfg t s p (choiceOf ch) = some (s', p', e) ∧ StRel R s' w ∧ PCAt R s' p' q' ∧ GrowsQ s s' :=
    fun h1 h2 => ⟨s, _, h1, hs, h2, .refl _⟩
  cases hp with
  | idle =>
    cases ch <;> simp [ststep] at hst
    rename_i o
    obtain ⟨hst, rfl, rfl⟩ := hst
    cases o with
    | push b v => cases hst; exact same rfl (.alloc _ _ trivial)
    | pop => cases hst; exact same rfl .cHead
    | empty => cases hst; exact same rfl .eHead
    | reserve k =>
      by_cases hx : R.fixed = true
      · simp [sstart, hx] at hst
      · simp [sstart, hx] at hst; subst hst
        exact same (by simp [tstep, SChoice.base, choiceOf, start, Rep.cfg, hx]) (.rsv _ (by simpa using hx))
  | alloc b v h1 =>
    rename_i a a'
    simp only [ststep] at hst
    cases hr : saStep R b w.mem a' ch with
    | none => rw [hr] at hst; simp at hst
    | some x =>
      obtain ⟨m', r'⟩ := x
      rw [hr] at hst
      have hc := choiceOf_saStep hr
      obtain ⟨h', r, h3, h4, h5, h6⟩ := saStep_sim hf hs.mem h1 hfr hr
      cases r <;> cases r' <;> simp only [AResRel] at h6 <;> simp at hst <;> obtain ⟨rfl, rfl, rfl⟩ := hst
      · exact ⟨_, _, by simp only [tstep, hc, h3], hs.setMem h4 h5, .alloc b v h6, .heap h5⟩
      · obtain ⟨rfl, h6⟩ := h6
        exact ⟨_, _, by simp only [tstep, hc, h3], hs.setMem h4 h5, .constr b v h6, .heap h5⟩
      · exact ⟨_, _, by simp only [tstep, hc, h3], hs.setMem h4 h5, .ret _, .heap h5⟩
      · exact ⟨_, _, by simp only [tstep, hc, h3], hs.setMem h4 h5, .ret _, .heap h5⟩
  | constr b v h1 =>
    rename_i n
    cases ch <;> simp only [ststep, reduceCtorEq] at hst
    · rw [hs.mem.data] at hst
      by_cases hd : (s.heap.data n).isSome = true
      · simp [hd] at hst
        obtain ⟨rfl, rfl, rfl⟩ := hst
        exact same (by simp [tstep, SChoice.base, choiceOf, hd]) .err
      · simp [hd] at hst
        obtain ⟨rfl, rfl, rfl⟩ := hst
        exact ⟨{ s with heap := s.heap.setData n (some v) }, .nload b v n, by simp [tstep, SChoice.base, choiceOf, hd],
          hs.setMem (hs.mem.setData n (some v)) (.refl _), .nload b v h1, .heap (.refl _)⟩
    · simp at hst
      obtain ⟨rfl, rfl, rfl⟩ := hst
      exact same rfl (.ret _)
  | nload b v h1 =>
    rename_i n
    cases ch <;> simp [ststep] at hst
    obtain ⟨rfl, rfl, rfl⟩ := hst
    exact same rfl (.nstore b v h1 (hs.mem.okNext n h1) (hs.mem.next n h1))
  | nstore b v h1 h2 h3 =>
    rename_i n o o'
    cases ch <;> simp [ststep] at hst
    obtain ⟨rfl, rfl, rfl⟩ := hst
    refine ⟨_, _, rfl, ?_, .pTail h1, .heap ⟨Nat.le_refl _, Nat.le_refl _⟩⟩
    have h4 : R.K.pack (R.K.hnd none) (R.K.next (R.K.tag o')) = R.enc ⟨none, R.cfg.nextTag o.tag⟩ := by
      rw [h3, hf.nextTag h2]; rfl
    rw [h4, hs.mem.nver]
    exact hs.setMem (hs.mem.setNext ⟨okPtr.none, hf.nextTag_lt _⟩ _) ⟨Nat.le_refl _, Nat.le_refl _⟩
  | pTail h1 =>
    cases ch <;> simp [ststep] at hst
    obtain ⟨rfl, rfl, rfl⟩ := hst
    exact same rfl (.pNext h1 hs.tailSnap)
  | pNext h1 h2 =>
    rename_i n T T'
    simp only [ststep, Rep.node_snap hf h2 hL] at hst
    cases hT : T.v.ptr with
    | none =>
      simp only [hT] at hst
      simp at hst
      obtain ⟨rfl, rfl, rfl⟩ := hst
      exact same (by simp [tstep, hT]) .err
    | some x =>
      simp only [hT] at hst
      have hx := h2.ok.1 x hT
      cases ch <;> simp at hst
      · obtain ⟨rfl, rfl, rfl⟩ := hst
        exact same (p' := .pCheck n T (s.nextSnap x)) (by simp [tstep, hT, choiceOf, SChoice.base]) (.pCheck h1 h2 (MemRel.linkSnap hs.mem hx _))
      · obtain ⟨hv, rfl, rfl, rfl⟩ := hst
        rw [hs.tailVer, h2.ver] at hv
        have := h2.le
        exact same (p' := .pCheck n T ⟨⟨none, 0⟩, s.heap.nver x⟩) (by simp [tstep, hT, choiceOf, hv])
          (.pCheck h1 h2 ⟨by simp [hs.mem.nver], .inr (by omega)⟩)
  | pCheck h1 h2 h3 =>
    rename_i n T T' L L'
    have h4 : w.tail = T'.v ↔ s.tail = T.v := by
      rw [hs.tail, h2.val]; exact hf.eq_iff (hs.okTail.mono hL) (h2.ok.mono hL)
    simp only [sfresh, hs.tailVer, h2.ver] at hfr
    cases ch <;> simp only [ststep, reduceCtorEq] at hst
    by_cases he : s.tail = T.v
    · simp [h4.2 he] at hst
      obtain ⟨rfl, rfl, rfl⟩ := hst
      have h5 := h2.current hs.tagTail he hfr
      obtain ⟨h6, h7⟩ := h3.2.resolve_right (by omega)
      refine same (p' := pBranch n T L) (by simp [tstep, choiceOf, SChoice.base, he]) ?_
      unfold pBranch spBranch
      rw [h7, hf.node (h6.mono hL)]
      cases hp : L.v.ptr with
      | none => exact .pCas h1 h2 ⟨h3.1, .inl ⟨h6, h7⟩⟩
      | some y => exact .swing (by exact h1) h2 (h6.1 y hp)
    · simp [mt h4.1 he] at hst
      obtain ⟨rfl, rfl, rfl⟩ := hst
      exact same (by simp [tstep, choiceOf, SChoice.base, he]) (.pTail h1)
  | pCas h1 h2 h3 =>
    rename_i n T T' L L'
    obtain ⟨h5, h3⟩ := h3
    obtain ⟨h6, h7⟩ := h3.resolve_right id
    cases ch <;> simp only [ststep, reduceCtorEq, Rep.node_snap hf h2 hL] at hst
    · cases hT : T.v.ptr with
      | none =>
        simp [hT] at hst
        obtain ⟨rfl, rfl, rfl⟩ := hst
        exact same (by simp [tstep, choiceOf, SChoice.base, hT]) .err
      | some x =>
        have hx := h2.ok.1 x hT
        have h4 : w.mem.next x = L'.v ↔ s.heap.next x = L.v := by
          rw [hs.mem.next x hx, h7]; exact hf.eq_iff ((hs.mem.okNext x hx).mono hL) (h6.mono hL)
        simp only [hT] at hst
        by_cases he : s.heap.next x = L.v
        · simp [h4.2 he] at hst
          obtain ⟨rfl, rfl, rfl⟩ := hst
          have h8 : R.K.pack (R.K.hnd (some n)) (R.K.next (R.K.tag L'.v)) = R.enc ⟨some n, R.cfg.nextTag L.v.tag⟩ := by
            rw [h7, hf.nextTag h6]; rfl
          refine ⟨{ s with heap := { s.heap with next := upd s.heap.next x ⟨some n, R.cfg.nextTag L.v.tag⟩,
                                                 nver := upd s.heap.nver x (s.heap.nver x + 1) } },
            .swing .donePush T n, by simp [tstep, choiceOf, SChoice.base, hT, he], ?_, .swing trivial h2 h1,
            .heap ⟨Nat.le_refl _, Nat.le_refl _⟩⟩
          rw [h8, hs.mem.nver]
          exact hs.setMem (hs.mem.setNext ⟨okPtr.some (by exact h1), hf.nextTag_lt _⟩ _) ⟨Nat.le_refl _, Nat.le_refl _⟩
        · simp [mt h4.1 he] at hst
          obtain ⟨rfl, rfl, rfl⟩ := hst
          exact same (by simp [tstep, choiceOf, SChoice.base, hT, he]) (.pTail h1)
    · simp at hst
      obtain ⟨rfl, rfl, rfl⟩ := hst
      exact same rfl (.pTail h1)
  | swing h1 h2 h3 =>
    rename_i k T T' y
    cases ch <;> simp [ststep] at hst
    obtain ⟨rfl, rfl, rfl⟩ := hst
    obtain ⟨h4, h5⟩ := hs.swingTail hf h2 h3
    refine ⟨_, _, rfl, h4, ?_, h5⟩
    cases k with
    | retryPush n => exact .pTail (Nat.lt_of_lt_of_le h1 h5.1.1)
    | donePush => exact .ret _
    | retryPop => exact .cHead
  | cHead =>
    cases ch <;> simp [ststep] at hst
    obtain ⟨rfl, rfl, rfl⟩ := hst
    exact same rfl (.cTail hs.headSnap)
  | cTail h1 =>
    cases ch <;> simp [ststep] at hst
    obtain ⟨rfl, rfl, rfl⟩ := hst
    exact same rfl (.cNext h1 hs.tailSnap)
  | cNext h1 h2 =>
    rename_i H H' T T'
    simp only [ststep, Rep.node_snap hf h1 hL] at hst
    cases hH : H.v.ptr with
    | none =>
      simp only [hH] at hst
      simp at hst
      obtain ⟨rfl, rfl, rfl⟩ := hst
      exact same (by simp [tstep, hH]) .err
    | some x =>
      simp only [hH] at hst
      have hx := h1.ok.1 x hH
      cases ch <;> simp at hst
      · obtain ⟨rfl, rfl, rfl⟩ := hst
        exact same (p' := .cCheck H T (s.nextSnap x)) (by simp [tstep, hH, choiceOf, SChoice.base]) (.cCheck h1 h2 (MemRel.linkSnap hs.mem hx _))
      · obtain ⟨⟨hv, ht⟩, rfl, rfl, rfl⟩ := hst
        rw [hs.headVer, h1.ver] at hv
        rw [hs.tail, hf.node (hs.okTail.mono hL)] at ht
        have := h1.le
        exact same (p' := .cCheck H T ⟨⟨none, 0⟩, s.heap.nver x⟩) (by simp [tstep, hH, choiceOf, hv, ht])
          (.cCheck h1 h2 ⟨by simp [hs.mem.nver], .inr (by omega)⟩)
  | cCheck h1 h2 h3 =>
    rename_i H H' T T' L L'
    have h4 : w.head = H'.v ↔ s.head = H.v := by
      rw [hs.head, h1.val]; exact hf.eq_iff (hs.okHead.mono hL) (h1.ok.mono hL)
    simp only [sfresh, hs.headVer, h1.ver] at hfr
    cases ch <;> simp only [ststep, reduceCtorEq] at hst
    by_cases he : s.head = H.v
    · simp [h4.2 he] at hst
      obtain ⟨rfl, rfl, rfl⟩ := hst
      have h5 := h1.current hs.tagHead he hfr
      obtain ⟨h6, h7⟩ := h3.2.resolve_right (by omega)
      refine same (p' := cBranch H T L) (by simp [tstep, choiceOf, SChoice.base, he]) ?_
      unfold cBranch scBranch
      have h8 : R.K.ptr H'.v = R.K.ptr T'.v ↔ H.v.ptr = T.v.ptr := by
        rw [h1.val, h2.val]; exact Rep.ptr_iff hf h1.ok h2.ok hL
      rw [h7, hf.node (h6.mono hL), hf.ptr (h6.mono hL)]
      by_cases hp : H.v.ptr = T.v.ptr
      · rw [if_pos hp, if_pos (h8.2 hp)]
        cases hy : L.v.ptr with
        | none => exact .ret _
        | some y => exact .swing trivial h2 (h6.1 y hy)
      · rw [if_neg hp, if_neg (mt h8.1 hp)]
        cases hy : L.v.ptr with
        | none => exact .cHead
        | some y => exact .cData h1 (h6.1 y hy)
    · simp [mt h4.1 he] at hst
      obtain ⟨rfl, rfl, rfl⟩ := hst
      exact same (by simp [tstep, choiceOf, SChoice.base, he]) .cHead
  | cData h1 h2 =>
    rename_i H H' y
    cases ch <;> simp only [ststep, reduceCtorEq, hs.mem.data, hs.headVer, h1.ver] at hst
    · cases hd : s.heap.data y with
      | some v =>
        simp [hd] at hst
        obtain ⟨rfl, rfl, rfl⟩ := hst
        exact same (by simp [tstep, choiceOf, SChoice.base, hd]) (.cCas v h1 h2)
      | none =>
        simp [hd] at hst
        obtain ⟨hv, rfl, rfl, rfl⟩ := hst
        exact same (by simp [tstep, choiceOf, SChoice.base, hd, hv]) .err
    · simp at hst
      obtain ⟨rfl, rfl, rfl⟩ := hst
      exact same rfl (.ret _)
    · simp at hst
      obtain ⟨hv, rfl, rfl, rfl⟩ := hst
      exact same (by simp [tstep, choiceOf, hv]) (.cCas _ h1 h2)
  | cCas v h1 h2 =>
    rename_i H H' y
    have h4 : w.head = H'.v ↔ s.head = H.v := by
      rw [hs.head, h1.val]; exact hf.eq_iff (hs.okHead.mono hL) (h1.ok.mono hL)
    cases ch <;> simp only [ststep, reduceCtorEq, Rep.node_snap hf h1 hL] at hst
    · by_cases he : s.head = H.v
      · cases hH : H.v.ptr with
        | none => simp [h4.2 he, hH] at hst
        | some x =>
          simp [h4.2 he, hH] at hst
          obtain ⟨rfl, rfl, rfl⟩ := hst
          exact ⟨_, _, by simp [tstep, choiceOf, SChoice.base, he, hH], hs.setHead hf h1 he h2, .cDestroy v (h1.ok.1 x hH),
            .refl _, Nat.le_succ _, Nat.le_refl _⟩
      · simp [mt h4.1 he] at hst
        obtain ⟨rfl, rfl, rfl⟩ := hst
        exact same (by simp [tstep, choiceOf, SChoice.base, he]) .cHead
    · simp at hst
      obtain ⟨rfl, rfl, rfl⟩ := hst
      exact same rfl .cHead
  | cDestroy v h1 =>
    cases ch <;> simp [ststep] at hst
    obtain ⟨rfl, rfl, rfl⟩ := hst
    exact ⟨_, _, rfl, hs.setMem (hs.mem.setData _ none) (.refl _), .free trivial h1 trivial, .heap (.refl _)⟩
  | free h1 h2 h3 =>
    rename_i k n d d'
    simp only [ststep] at hst
    cases hr : sdStep R w.mem n d' ch with
    | none => rw [hr] at hst; simp at hst
    | some x =>
      obtain ⟨m', r'⟩ := x
      rw [hr] at hst
      have hc := choiceOf_sdStep hr
      obtain ⟨h', r, h4, h5, h6, h7⟩ := sdStep_sim hf hs.mem h2 h3 hr
      cases r <;> cases r' <;> simp only [DResRel] at h7 <;> simp at hst <;> obtain ⟨rfl, rfl, rfl⟩ := hst
      · refine ⟨{ s with heap := h' }, onFreed k, by simp [tstep, hc, h4], hs.setMem h5 h6, ?_, .heap h6⟩
        cases k with
        | pop v => exact .ret _
        | rsv k => exact .rsv _ h1
      · exact ⟨_, _, by simp only [tstep, hc, h4], hs.setMem h5 h6, .free h1 (Nat.lt_of_lt_of_le h2 h6.1) h7, .heap h6⟩
  | eHead =>
    cases ch <;> simp [ststep] at hst <;> obtain ⟨rfl, rfl, rfl⟩ := hst
    · exact same rfl (.eTail hs.headSnap)
    · exact same rfl (.eHead2 hs.tailSnap)
  | eTail h1 =>
    rename_i H H'
    cases ch <;> simp [ststep] at hst
    obtain ⟨rfl, rfl, rfl⟩ := hst
    have h2 : decide (R.K.ptr H'.v = R.K.ptr w.tail) = (H.v.ptr == s.tail.ptr) := by
      rw [h1.val, hs.tail, Bool.eq_iff_iff]; simp [Rep.ptr_iff hf h1.ok hs.okTail hL]
    rw [h2]
    exact same rfl (.ret _)
  | eHead2 h1 =>
    rename_i T T'
    cases ch <;> simp [ststep] at hst
    obtain ⟨rfl, rfl, rfl⟩ := hst
    have h2 : decide (R.K.ptr w.head = R.K.ptr T'.v) = (s.head.ptr == T.v.ptr) := by
      rw [h1.val, hs.head, Bool.eq_iff_iff]; simp [Rep.ptr_iff hf hs.okHead h1.ok hL]
    rw [h2]
    exact same rfl (.ret _)
  | rsv k h1 =>
    cases k with
    | zero =>
      cases ch <;> simp [ststep] at hst
      obtain ⟨rfl, rfl, rfl⟩ := hst
      exact same rfl (.ret _)
    | succ k =>
      cases ch <;> simp [ststep] at hst
      · obtain ⟨hl, rfl, rfl, rfl⟩ := hst
        rw [hs.mem.nalloc]
        have hg : Grows s.heap s.heap.malloc := ⟨Nat.le_succ _, Nat.le_refl _⟩
        exact ⟨_, _, rfl, hs.setMem (hs.mem.malloc hf h1 hl) hg, .free h1 (Nat.lt_succ_self _) trivial, .heap hg⟩
      · obtain ⟨rfl, rfl, rfl⟩ := hst
        exact same rfl (.ret _)
  | ret r =>
    cases ch <;> simp [ststep] at hst
    obtain ⟨rfl, rfl, rfl⟩ := hst
    exact same rfl .idle
  | err => cases ch <;> simp [ststep] at hst

end Verif.Queue
