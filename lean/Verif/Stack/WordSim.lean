import Verif.Stack.WordModel
import Verif.Stack.Props

/-!
# Stack: the machine on words is simulated by the machine on pairs (C51)

No further code of /repo is modelled here.
-/

namespace Verif.Stack
open Lin

variable {α : Type} {R : Rep}

/-- Shared states that correspond to each other. -/
structure StRel (R : Rep) (s : St α) (w : SSt R.K α) : Prop where
  mem : MemRel R s.heap w.mem
  tos : w.tos = R.enc s.tos
  tosVer : w.tosVer = s.tosVer
  ok : R.Ok s.heap.nalloc s.tos
  tag : s.tos.tag = s.tosVer % R.M

theorem StRel.tosSnap {s : St α} {w : SSt R.K α} (h : StRel R s w) : SnapRel R s.heap.nalloc s.tosVer s.tosSnap w.tosSnap :=
  ⟨h.tos, h.tosVer, h.ok, Nat.le_refl _, h.tag⟩

/-- The nodes prepared so far by a range push exist. -/
def PushK.Ok (N : Nat) : PushK α → Prop
  | .one _ => True
  | .range _ te _ _ => ∀ x, te = some x → x.1 < N ∧ x.2 < N

inductive FreeRel (R : Rep) (N : Nat) : FreeK α → SFreeK R.K α → Prop where
  | pop (v) : FreeRel R N (.pop v) (.pop v)
  | cons (thr acc) {nx} : okPtr (· < N) nx → FreeRel R N (.cons thr acc nx) (.cons thr acc (R.K.hnd nx))
  | rsv (k) : R.fixed = false → FreeRel R N (.rsv k) (.rsv k)
  | undo {nx} : okPtr (· < N) nx → FreeRel R N (.undo nx) (.undo (R.K.hnd nx))

/-- Program counters that correspond to each other, in a state with `N` nodes in which `pool_` and `tos` are at versions `pv` and
`tv`. -/
inductive PCRel (R : Rep) (N pv tv : Nat) : PC α → SPC R.K α → Prop where
  | idle : PCRel R N pv tv .idle .idle
  | alloc (b) {k a a'} : k.Ok N → ARel R N pv a a' → PCRel R N pv tv (.alloc b k a) (.alloc b k a')
  | constr (b) {k n} : k.Ok N → n < N → PCRel R N pv tv (.constr b k n) (.constr b k n)
  | rlink (b acc v rest) {te n} : (∀ x, te = some x → x.1 < N ∧ x.2 < N) → n < N →
      PCRel R N pv tv (.rlink b acc te v rest n) (.rlink b acc te v rest n)
  | lload {top e} (r) : top < N → e < N → PCRel R N pv tv (.lload top e r) (.lload top e r)
  | lset {top e o o'} (r) : top < N → e < N → SnapRel R N tv o o' → PCRel R N pv tv (.lset top e o r) (.lset top e o' r)
  | lcas {top e o o'} (r) : top < N → e < N → SnapRel R N tv o o' → PCRel R N pv tv (.lcas top e o r) (.lcas top e o' r)
  | pload (thr) : PCRel R N pv tv (.pload thr) (.pload thr)
  | ptest (thr) {o o'} : SnapRel R N tv o o' → PCRel R N pv tv (.ptest thr o) (.ptest thr o')
  | pcas (thr) {o o' nx x} : SnapRel R N tv o o' → NxRel R N (o.ver < tv) nx x →
      PCRel R N pv tv (.pcas thr o nx) (.pcas thr o' x)
  | papply (thr) {n} : n < N → PCRel R N pv tv (.papply thr n) (.papply thr n)
  | pdestroy {n} (v) : n < N → PCRel R N pv tv (.pdestroy n v) (.pdestroy n v)
  | free {k k' n d d'} : FreeRel R N k k' → n < N → DRel R N pv d d' → PCRel R N pv tv (.free k n d) (.free k' n d')
  | cload (rev thr) : PCRel R N pv tv (.cload rev thr) (.cload rev thr)
  | ctest (rev thr) {o o'} : SnapRel R N tv o o' → PCRel R N pv tv (.ctest rev thr o) (.ctest rev thr o')
  | ccas (rev thr) {o o'} : SnapRel R N tv o o' → PCRel R N pv tv (.ccas rev thr o) (.ccas rev thr o')
  | crev (thr) {n last} : n < N → okPtr (· < N) last → PCRel R N pv tv (.crev thr n last) (.crev thr n last)
  | crevSet (thr) {n last nx} : n < N → okPtr (· < N) last → okPtr (· < N) nx →
      PCRel R N pv tv (.crevSet thr n last nx) (.crevSet thr n last (R.K.hnd nx))
  | capply (thr acc) {n} : n < N → PCRel R N pv tv (.capply thr n acc) (.capply thr n acc)
  | cread (thr acc) {n} : n < N → PCRel R N pv tv (.cread thr n acc) (.cread thr n acc)
  | cdestroy (thr acc) {n nx} : n < N → okPtr (· < N) nx →
      PCRel R N pv tv (.cdestroy thr n acc nx) (.cdestroy thr n acc (R.K.hnd nx))
  | eload : PCRel R N pv tv .eload .eload
  | rsv (k) : R.fixed = false → PCRel R N pv tv (.rsv k) (.rsv k)
  | undo {n} : n < N → PCRel R N pv tv (.undo n) (.undo n)
  | undoD {n nx} : n < N → okPtr (· < N) nx → PCRel R N pv tv (.undoD n nx) (.undoD n (R.K.hnd nx))
  | ret (r) : PCRel R N pv tv (.ret r) (.ret r)
  | err : PCRel R N pv tv .err .err

section
variable {N N' pv pv' tv tv' : Nat}

theorem PushK.Ok.mono {k : PushK α} (h : k.Ok N) (hN : N ≤ N') : k.Ok N' := by
  cases k with
  | one => trivial
  | range => intro x hx; have := h x hx; omega

theorem FreeRel.mono {k : FreeK α} {k' : SFreeK R.K α} (h : FreeRel R N k k') (hN : N ≤ N') : FreeRel R N' k k' := by
  cases h with
  | pop => exact .pop _
  | cons _ _ h => exact .cons _ _ (okPtr.mono hN h)
  | rsv _ h => exact .rsv _ h
  | undo h => exact .undo (okPtr.mono hN h)

theorem PCRel.mono {p : PC α} {q : SPC R.K α} (h : PCRel R N pv tv p q) (hN : N ≤ N') (hpv : pv ≤ pv') (htv : tv ≤ tv') :
    PCRel R N' pv' tv' p q := by
  cases h with
  | idle => exact .idle
  | alloc b h1 h2 => exact .alloc b (h1.mono hN) (h2.mono hN hpv)
  | constr b h1 h2 => exact .constr b (h1.mono hN) (by omega)
  | rlink b acc v rest h1 h2 => exact .rlink b acc v rest (fun x hx => by have := h1 x hx; omega) (by omega)
  | lload r h1 h2 => exact .lload r (by omega) (by omega)
  | lset r h1 h2 h3 => exact .lset r (by omega) (by omega) (h3.mono hN htv)
  | lcas r h1 h2 h3 => exact .lcas r (by omega) (by omega) (h3.mono hN htv)
  | pload thr => exact .pload thr
  | ptest thr h1 => exact .ptest thr (h1.mono hN htv)
  | pcas thr h1 h2 => exact .pcas thr (h1.mono hN htv) (h2.mono hN (by omega))
  | papply thr h1 => exact .papply thr (by omega)
  | pdestroy v h1 => exact .pdestroy v (by omega)
  | free h1 h2 h3 => exact .free (h1.mono hN) (by omega) (h3.mono hN hpv)
  | cload => exact .cload _ _
  | ctest _ _ h1 => exact .ctest _ _ (h1.mono hN htv)
  | ccas _ _ h1 => exact .ccas _ _ (h1.mono hN htv)
  | crev _ h1 h2 => exact .crev _ (by omega) (okPtr.mono hN h2)
  | crevSet _ h1 h2 h3 => exact .crevSet _ (by omega) (okPtr.mono hN h2) (okPtr.mono hN h3)
  | capply _ _ h1 => exact .capply _ _ (by omega)
  | cread _ _ h1 => exact .cread _ _ (by omega)
  | cdestroy _ _ h1 h2 => exact .cdestroy _ _ (by omega) (okPtr.mono hN h2)
  | eload => exact .eload
  | rsv k h => exact .rsv k h
  | undo h1 => exact .undo (by omega)
  | undoD h1 h2 => exact .undoD (by omega) (okPtr.mono hN h2)
  | ret r => exact .ret r
  | err => exact .err

theorem onNull_rel {k : PushK α} (h : k.Ok N) : PCRel R N pv tv (onNull k) (sonNull k) := by
  cases k with
  | one => exact .ret _
  | range acc te v rest =>
    cases te with
    | none => exact .ret _
    | some x => exact .lload _ (h x rfl).1 (h x rfl).2

theorem onThrow_rel {k : PushK α} (h : k.Ok N) : PCRel R N pv tv (onThrow k) (sonThrow k) := by
  cases k with
  | one => exact .ret _
  | range acc te v rest =>
    cases te with
    | none => exact .ret _
    | some x => exact .undo (h x rfl).1

theorem onFreed_rel (hf : R.Faithful) (hN : N ≤ R.limit) {k : FreeK α} {k' : SFreeK R.K α} (h : FreeRel R N k k') :
    PCRel R N pv tv (onFreed k) (sonFreed k') := by
  cases h with
  | pop => exact .ret _
  | cons thr acc h =>
    rename_i nx
    simp only [sonFreed, hf.node_hnd h hN]
    cases nx with
    | none => exact .ret _
    | some m => exact .capply _ _ (h m rfl)
  | rsv _ h => exact .rsv _ h
  | undo h =>
    rename_i nx
    simp only [sonFreed, hf.node_hnd h hN]
    cases nx with
    | none => exact .ret _
    | some m => exact .undo (h m rfl)

theorem onLinked_rel {b : Bool} {acc rest : List α} {top e : Nat} (h1 : top < N) (h2 : e < N) :
    PCRel R N pv tv (onLinked b acc top e rest) (sonLinked b acc top e rest) := by
  cases rest with
  | nil => exact .lload _ h1 h2
  | cons w rest => exact .alloc _ (by rintro _ ⟨⟩; exact ⟨h1, h2⟩) trivial

end

/-- How a step may change the state. -/
def GrowsS (s s' : St α) : Prop := Grows s.heap s'.heap ∧ s.tosVer ≤ s'.tosVer

theorem GrowsS.refl (s : St α) : GrowsS s s := ⟨.refl _, Nat.le_refl _⟩

theorem StRel.setMem {s : St α} {w : SSt R.K α} (h : StRel R s w) {h' : Heap α} {m' : SMem R.K α} (hm : MemRel R h' m')
    (hg : Grows s.heap h') : StRel R { s with heap := h' } { w with mem := m' } :=
  ⟨hm, h.tos, h.tosVer, h.ok.mono hg.1, h.tag⟩

/-- The relation of program counters in a state. -/
abbrev PCAt (R : Rep) (s : St α) (p : PC α) (q : SPC R.K α) : Prop := PCRel R s.heap.nalloc s.heap.poolVer s.tosVer p q

theorem fresh_of {s : St α} {w : SSt R.K α} (hs : StRel R s w) {p : PC α} {q : SPC R.K α} (hp : PCAt R s p q)
    (hfr : sfresh R w q) : fresh R.cfg s p := by
  cases hp with
  | alloc b h1 h2 => exact saFresh.fresh hs.mem h2 hfr
  | pcas thr h1 h2 => simp only [sfresh, hs.tosVer, h1.ver] at hfr; exact .inr hfr
  | ccas rev thr h1 => simp only [sfresh, hs.tosVer, h1.ver] at hfr; exact .inr hfr
  | _ => trivial

/-- A change of the top of stack that increments the tag. -/
theorem StRel.setTos (hf : R.Faithful) {s : St α} {w : SSt R.K α} (h : StRel R s w) {o : Snap} {o' : SSnap R.K}
    (ho : SnapRel R s.heap.nalloc s.tosVer o o') (he : s.tos = o.v) {nx : Option Nat} (hx : okPtr (· < s.heap.nalloc) nx) :
    StRel R { s with tos := ⟨nx, R.cfg.nextTag o.v.tag⟩, tosVer := s.tosVer + 1 }
      { w with tos := R.K.pack (R.K.hnd nx) (R.K.next (R.K.tag o'.v)), tosVer := w.tosVer + 1 } := by
  refine ⟨h.mem, ?_, by simp [h.tosVer], ⟨hx, hf.nextTag_lt _⟩, ?_⟩
  · simp only [ho.val, hf.nextTag ho.ok]; rfl
  · show (o.v.tag + 1) % R.M = (s.tosVer + 1) % R.M
    rw [← he, h.tag]; simp

/-- **Simulation of a step.** -/
theorem step_sim (hf : R.Faithful) {t : Nat} {s : St α} {w w' : SSt R.K α} (hs : StRel R s w) {p : PC α} {q q' : SPC R.K α}
    (hp : PCAt R s p q) {ch : SChoice R.K (Op α) α} {e} (hfr : sfresh R w q) (hst : ststep R t w q ch = some (w', q', e)) :
    ∃ s' p', tstep R.cfg t s p ch.base = some (s', p', e) ∧ StRel R s' w' ∧ PCAt R s' p' q' ∧ GrowsS s s' := by
  have hL := hs.mem.limit
  have same : ∀ {p' : PC α} {q' : SPC R.K α}, tstep R.cfg t s p ch.base = some (s, p', e) → PCAt R s p' q' →
      ∃ s' p', tstep R.cfg t s p ch.base = some (s', p', e) ∧ StRel R s' w ∧ PCAt R s' p' q' ∧ GrowsS s s' :=
    fun h1 h2 => ⟨s, _, h1, hs, h2, .refl _⟩
  cases hp with
  | idle =>
    cases ch <;> simp [ststep] at hst
    rename_i o
    obtain ⟨hst, rfl, rfl⟩ := hst
    cases o with
    | push b v => cases hst; exact same rfl (.alloc _ trivial trivial)
    | pushRange b vs =>
      by_cases hx : R.fixed = true
      · simp [sstart, hx] at hst
      · cases vs with
        | nil => simp [sstart, hx] at hst; subst hst; exact same (by simp [tstep, SChoice.base, start, Rep.cfg, hx]) .err
        | cons v rest =>
          simp [sstart, hx] at hst; subst hst
          exact same (p' := .alloc b (.range [] none v rest) .load) (by simp [tstep, SChoice.base, start, Rep.cfg, hx])
            (.alloc _ nofun trivial)
    | pop thr => cases hst; exact same rfl (.pload _)
    | consumeAll rev thr => cases hst; exact same rfl (.cload _ _)
    | empty => cases hst; exact same rfl .eload
    | reserve k =>
      by_cases hx : R.fixed = true
      · simp [sstart, hx] at hst
      · simp [sstart, hx] at hst; subst hst
        exact same (by simp [tstep, SChoice.base, start, Rep.cfg, hx]) (.rsv _ (by simpa using hx))
  | alloc b h1 h2 =>
    rename_i k a a'
    simp only [ststep] at hst
    cases hr : saStep R b w.mem a' ch with
    | none => rw [hr] at hst; simp at hst
    | some x =>
      obtain ⟨m', r'⟩ := x
      rw [hr] at hst
      obtain ⟨h', r, h3, h4, h5, h6⟩ := saStep_sim hf hs.mem h2 hfr hr
      have h7 := h1.mono h5.1
      cases r <;> cases r' <;> simp only [AResRel] at h6 <;> simp at hst <;> obtain ⟨rfl, rfl, rfl⟩ := hst
      · exact ⟨_, _, by simp only [tstep, h3], hs.setMem h4 h5, .alloc b h7 h6, h5, Nat.le_refl _⟩
      · obtain ⟨rfl, h6⟩ := h6
        exact ⟨_, _, by simp only [tstep, h3], hs.setMem h4 h5, .constr b h7 h6, h5, Nat.le_refl _⟩
      · exact ⟨_, _, by simp only [tstep, h3], hs.setMem h4 h5, onNull_rel h7, h5, Nat.le_refl _⟩
      · exact ⟨_, _, by simp only [tstep, h3], hs.setMem h4 h5, onThrow_rel h7, h5, Nat.le_refl _⟩
  | constr b h1 h2 =>
    rename_i k n
    cases ch <;> simp only [ststep, reduceCtorEq] at hst
    · rw [hs.mem.data] at hst
      by_cases hd : (s.heap.data n).isSome = true
      · simp [hd] at hst
        obtain ⟨rfl, rfl, rfl⟩ := hst
        exact same (by simp [tstep, SChoice.base, hd]) .err
      · simp only [hd] at hst
        have h3 := hs.setMem (hs.mem.setData n (some k.val)) (.refl _)
        cases k with
        | one v =>
          simp at hst
          obtain ⟨rfl, rfl, rfl⟩ := hst
          exact ⟨_, _, by simp [tstep, SChoice.base, hd], h3, .lload _ h2 h2, .refl _⟩
        | range acc te v rest =>
          simp at hst
          obtain ⟨rfl, rfl, rfl⟩ := hst
          exact ⟨_, _, by simp [tstep, SChoice.base, hd], h3, .rlink _ _ _ _ h1 h2, .refl _⟩
    · simp at hst
      obtain ⟨rfl, rfl, rfl⟩ := hst
      exact same rfl (onThrow_rel h1)
  | rlink b acc v rest h1 h2 =>
    rename_i te n
    cases ch <;> simp only [ststep, reduceCtorEq] at hst
    cases te with
    | none =>
      simp at hst
      obtain ⟨rfl, rfl, rfl⟩ := hst
      exact ⟨_, _, rfl, hs.setMem (hs.mem.setLink hf h2 okPtr.none) (.refl _), onLinked_rel h2 h2, .refl _⟩
    | some x =>
      obtain ⟨top, e⟩ := x
      simp at hst
      obtain ⟨rfl, rfl, rfl⟩ := hst
      have h3 := h1 _ rfl
      exact ⟨_, _, rfl, hs.setMem (hs.mem.setLink hf h2 (okPtr.some h3.1)) (.refl _), onLinked_rel h2 h3.2, .refl _⟩
  | lload r h1 h2 =>
    cases ch <;> simp [ststep] at hst
    obtain ⟨rfl, rfl, rfl⟩ := hst
    exact same rfl (.lset _ h1 h2 hs.tosSnap)
  | lset r h1 h2 h3 =>
    rename_i top e o o'
    cases ch <;> simp [ststep] at hst
    obtain ⟨rfl, rfl, rfl⟩ := hst
    refine ⟨_, _, rfl, ?_, .lcas _ h1 h2 h3, .refl _⟩
    rw [h3.val, hf.ptr (h3.ok.mono hL)]
    exact hs.setMem (hs.mem.setLink hf h2 h3.ok.1) (.refl _)
  | lcas r h1 h2 h3 =>
    rename_i top e o o'
    have h4 : w.tos = o'.v ↔ s.tos = o.v := by
      rw [hs.tos, h3.val]; exact hf.eq_iff (hs.ok.mono hL) (h3.ok.mono hL)
    cases ch <;> simp only [ststep, reduceCtorEq] at hst
    · split at hst
      · rename_i h5
        rw [h4] at h5
        simp at hst
        obtain ⟨rfl, rfl, rfl⟩ := hst
        refine ⟨{ s with tos := ⟨some top, o.v.tag⟩ }, .ret r, by simp [tstep, SChoice.base, h5], ?_, .ret _, .refl _⟩
        refine { hs with tos := ?_, ok := ⟨okPtr.some (by exact h1), h3.ok.2⟩, tag := ?_ }
        · simp only [h3.val, hf.tag]; rfl
        · show o.v.tag = _
          rw [← h5, hs.tag]
      · rename_i h5
        rw [h4] at h5
        simp at hst
        obtain ⟨rfl, rfl, rfl⟩ := hst
        exact same (by simp [tstep, SChoice.base, h5]) (.lset _ h1 h2 hs.tosSnap)
    · simp at hst
      obtain ⟨rfl, rfl, rfl⟩ := hst
      exact same rfl (.lset _ h1 h2 hs.tosSnap)
  | pload thr =>
    cases ch <;> simp [ststep] at hst
    obtain ⟨rfl, rfl, rfl⟩ := hst
    exact same rfl (.ptest _ hs.tosSnap)
  | ptest thr h1 =>
    rename_i o o'
    have h2 : R.K.node (R.K.ptr o'.v) = o.v.ptr := by rw [h1.val, hf.node (h1.ok.mono hL)]
    simp only [ststep, h2] at hst
    cases ho : o.v.ptr with
    | none =>
      rw [ho] at hst
      cases ch <;> simp at hst
      obtain ⟨rfl, rfl, rfl⟩ := hst
      exact same (by simp [tstep, SChoice.base, ho]) (.ret _)
    | some n =>
      rw [ho] at hst
      have hn : n < s.heap.nalloc := h1.ok.1 n ho
      cases ch <;> simp at hst
      · obtain ⟨rfl, rfl, rfl⟩ := hst
        refine same (p' := .pcas thr o (s.heap.next n).ptr) (by simp [tstep, SChoice.base, ho])
          (.pcas _ h1 (.inl ⟨(hs.mem.okNext n hn).1, ?_⟩))
        rw [hs.mem.next n hn, hf.ptr ((hs.mem.okNext n hn).mono hL)]
      · obtain ⟨hv, rfl, rfl, rfl⟩ := hst
        rw [hs.tosVer, h1.ver] at hv
        have := h1.le
        exact same (p' := .pcas thr o none) (by simp [tstep, SChoice.base, ho, hv]) (.pcas _ h1 (.inr (by omega)))
  | pcas thr h1 h2 =>
    rename_i o o' nx x
    have h3 : R.K.node (R.K.ptr o'.v) = o.v.ptr := by rw [h1.val, hf.node (h1.ok.mono hL)]
    have h4 : w.tos = o'.v ↔ s.tos = o.v := by
      rw [hs.tos, h1.val]; exact hf.eq_iff (hs.ok.mono hL) (h1.ok.mono hL)
    simp only [sfresh, hs.tosVer, h1.ver] at hfr
    cases ch <;> simp only [ststep, reduceCtorEq] at hst
    · split at hst
      · rename_i h5
        rw [h4] at h5
        rw [h3] at hst
        cases ho : o.v.ptr with
        | none => simp [ho] at hst
        | some n =>
          simp [ho] at hst
          obtain ⟨rfl, rfl, rfl⟩ := hst
          have h6 := h1.current hs.tag h5 hfr
          obtain ⟨h7, rfl⟩ : okPtr (· < s.heap.nalloc) nx ∧ x = R.K.hnd nx := h2.resolve_right (by omega)
          exact ⟨_, _, by simp [tstep, SChoice.base, h5, ho], hs.setTos hf h1 h5 h7, .papply _ (h1.ok.1 n ho),
            .refl _, Nat.le_succ _⟩
      · rename_i h5
        rw [h4] at h5
        simp at hst
        obtain ⟨rfl, rfl, rfl⟩ := hst
        exact same (by simp [tstep, SChoice.base, h5]) (.ptest _ hs.tosSnap)
    · simp at hst
      obtain ⟨rfl, rfl, rfl⟩ := hst
      exact same rfl (.ptest _ hs.tosSnap)
  | papply thr h1 =>
    rename_i n
    cases ch <;> simp only [ststep, reduceCtorEq] at hst
    rw [hs.mem.data] at hst
    cases hd : s.heap.data n with
    | none =>
      simp [hd] at hst
      obtain ⟨rfl, rfl, rfl⟩ := hst
      exact same (by simp [tstep, SChoice.base, hd]) .err
    | some v =>
      cases thr <;> simp [hd] at hst <;> obtain ⟨rfl, rfl, rfl⟩ := hst
      · exact same (by simp [tstep, SChoice.base, hd]) (.pdestroy _ h1)
      · exact same (by simp [tstep, SChoice.base, hd]) (.ret _)
  | pdestroy v h1 =>
    rename_i n
    cases ch <;> simp only [ststep, reduceCtorEq] at hst
    rw [hs.mem.data] at hst
    cases hd : s.heap.data n with
    | none =>
      simp [hd] at hst
      obtain ⟨rfl, rfl, rfl⟩ := hst
      exact same (by simp [tstep, SChoice.base, hd]) .err
    | some v' =>
      simp [hd] at hst
      obtain ⟨rfl, rfl, rfl⟩ := hst
      exact ⟨_, .free (.pop v) n .load, by simp [tstep, SChoice.base, hd], hs.setMem (hs.mem.setData n none) (.refl _),
        .free (.pop _) h1 trivial, .refl _⟩
  | free h1 h2 h3 =>
    rename_i k k' n d d'
    simp only [ststep] at hst
    cases hr : sdStep R w.mem n d' ch with
    | none => rw [hr] at hst; simp at hst
    | some x =>
      obtain ⟨m', r'⟩ := x
      rw [hr] at hst
      obtain ⟨h', r, h4, h5, h6, h7⟩ := sdStep_sim hf hs.mem h2 h3 hr
      cases r <;> cases r' <;> simp only [DResRel] at h7 <;> simp at hst <;> obtain ⟨rfl, rfl, rfl⟩ := hst
      · exact ⟨_, _, by simp only [tstep, h4], hs.setMem h5 h6, onFreed_rel hf h5.limit (h1.mono h6.1), h6, Nat.le_refl _⟩
      · exact ⟨_, _, by simp only [tstep, h4], hs.setMem h5 h6, .free (h1.mono h6.1) (Nat.lt_of_lt_of_le h2 h6.1) h7, h6,
          Nat.le_refl _⟩
  | cload rev thr =>
    cases ch <;> simp [ststep] at hst
    obtain ⟨rfl, rfl, rfl⟩ := hst
    exact same rfl (.ctest _ _ hs.tosSnap)
  | ctest rev thr h1 =>
    rename_i o o'
    have h2 : R.K.node (R.K.ptr o'.v) = o.v.ptr := by rw [h1.val, hf.node (h1.ok.mono hL)]
    cases ch <;> simp only [ststep, reduceCtorEq, h2] at hst
    cases ho : o.v.ptr with
    | none =>
      simp [ho] at hst
      obtain ⟨rfl, rfl, rfl⟩ := hst
      exact same (by simp [tstep, SChoice.base, ho]) (.ret _)
    | some n =>
      simp [ho] at hst
      obtain ⟨rfl, rfl, rfl⟩ := hst
      exact same (by simp [tstep, SChoice.base, ho]) (.ccas _ _ h1)
  | ccas rev thr h1 =>
    rename_i o o'
    have h3 : R.K.node (R.K.ptr o'.v) = o.v.ptr := by rw [h1.val, hf.node (h1.ok.mono hL)]
    have h4 : w.tos = o'.v ↔ s.tos = o.v := by
      rw [hs.tos, h1.val]; exact hf.eq_iff (hs.ok.mono hL) (h1.ok.mono hL)
    cases ch <;> simp only [ststep, reduceCtorEq] at hst
    · split at hst
      · rename_i h5
        rw [h4] at h5
        rw [h3] at hst
        cases ho : o.v.ptr with
        | none => simp [ho] at hst
        | some n =>
          simp [ho] at hst
          obtain ⟨rfl, rfl, rfl⟩ := hst
          have hn := h1.ok.1 n ho
          refine ⟨_, if rev then .crev thr n none else .capply thr n [], by simp [tstep, SChoice.base, h5, ho],
            hs.setTos hf h1 h5 okPtr.none, ?_,
            .refl _, Nat.le_succ _⟩
          cases rev
          · exact .capply _ _ hn
          · exact .crev _ hn okPtr.none
      · rename_i h5
        rw [h4] at h5
        simp at hst
        obtain ⟨rfl, rfl, rfl⟩ := hst
        exact same (by simp [tstep, SChoice.base, h5]) (.ctest _ _ hs.tosSnap)
    · simp at hst
      obtain ⟨rfl, rfl, rfl⟩ := hst
      exact same rfl (.ctest _ _ hs.tosSnap)
  | crev thr h1 h2 =>
    rename_i n last
    cases ch <;> simp [ststep] at hst
    obtain ⟨rfl, rfl, rfl⟩ := hst
    rw [hs.mem.next n h1, hf.ptr ((hs.mem.okNext n h1).mono hL)]
    exact same rfl (.crevSet _ h1 h2 (hs.mem.okNext n h1).1)
  | crevSet thr h1 h2 h3 =>
    rename_i n last nx
    cases ch <;> simp [ststep] at hst
    obtain ⟨rfl, rfl, rfl⟩ := hst
    refine ⟨_, _, rfl, hs.setMem (hs.mem.setLink hf h1 h2) (.refl _), ?_, .refl _⟩
    rw [hf.node_hnd h3 hL]
    cases nx with
    | none => exact .capply _ _ h1
    | some m => exact .crev _ (h3 m rfl) (okPtr.some h1)
  | capply thr acc h1 =>
    rename_i n
    cases ch <;> simp only [ststep, reduceCtorEq] at hst
    rw [hs.mem.data] at hst
    cases hd : s.heap.data n with
    | none =>
      simp [hd] at hst
      obtain ⟨rfl, rfl, rfl⟩ := hst
      exact same (by simp [tstep, SChoice.base, hd]) .err
    | some v =>
      by_cases ht : thr = some acc.length
      · simp [hd, ht] at hst
        obtain ⟨rfl, rfl, rfl⟩ := hst
        exact same (by simp [tstep, SChoice.base, hd, ht]) (.ret _)
      · simp [hd, ht] at hst
        obtain ⟨rfl, rfl, rfl⟩ := hst
        exact same (by simp [tstep, SChoice.base, hd, ht]) (.cread _ _ h1)
  | cread thr acc h1 =>
    rename_i n
    cases ch <;> simp [ststep] at hst
    obtain ⟨rfl, rfl, rfl⟩ := hst
    rw [hs.mem.next n h1, hf.ptr ((hs.mem.okNext n h1).mono hL)]
    exact same rfl (.cdestroy _ _ h1 (hs.mem.okNext n h1).1)
  | cdestroy thr acc h1 h2 =>
    rename_i n nx
    cases ch <;> simp only [ststep, reduceCtorEq] at hst
    rw [hs.mem.data] at hst
    cases hd : s.heap.data n with
    | none =>
      simp [hd] at hst
      obtain ⟨rfl, rfl, rfl⟩ := hst
      exact same (by simp [tstep, SChoice.base, hd]) .err
    | some v' =>
      simp [hd] at hst
      obtain ⟨rfl, rfl, rfl⟩ := hst
      exact ⟨_, .free (.cons thr acc nx) n .load, by simp [tstep, SChoice.base, hd], hs.setMem (hs.mem.setData n none) (.refl _),
        .free (.cons _ _ h2) h1 trivial, .refl _⟩
  | eload =>
    cases ch <;> simp [ststep] at hst
    obtain ⟨rfl, rfl, rfl⟩ := hst
    rw [hs.tos, hf.node (hs.ok.mono hL)]
    exact same rfl (.ret _)
  | rsv k hx =>
    cases k with
    | zero =>
      cases ch <;> simp [ststep] at hst
      obtain ⟨rfl, rfl, rfl⟩ := hst
      exact same rfl (.ret _)
    | succ k =>
      cases ch <;> simp [ststep] at hst
      · obtain ⟨h1, rfl, rfl, rfl⟩ := hst
        refine ⟨_, .free (.rsv k) s.heap.nalloc .load, rfl, hs.setMem (hs.mem.malloc hf hx h1) ⟨Nat.le_succ _, Nat.le_refl _⟩, ?_,
          ⟨Nat.le_succ _, Nat.le_refl _⟩, Nat.le_refl _⟩
        rw [hs.mem.nalloc]
        exact .free (.rsv k hx) (Nat.lt_succ_self _) trivial
      · obtain ⟨rfl, rfl, rfl⟩ := hst
        exact same rfl (.ret _)
  | undo h1 =>
    rename_i n
    cases ch <;> simp [ststep] at hst
    obtain ⟨rfl, rfl, rfl⟩ := hst
    rw [hs.mem.next n h1, hf.ptr ((hs.mem.okNext n h1).mono hL)]
    exact same rfl (.undoD h1 (hs.mem.okNext n h1).1)
  | undoD h1 h2 =>
    rename_i n nx
    cases ch <;> simp only [ststep, reduceCtorEq] at hst
    rw [hs.mem.data] at hst
    cases hd : s.heap.data n with
    | none =>
      simp [hd] at hst
      obtain ⟨rfl, rfl, rfl⟩ := hst
      exact same (by simp [tstep, SChoice.base, hd]) .err
    | some v' =>
      simp [hd] at hst
      obtain ⟨rfl, rfl, rfl⟩ := hst
      exact ⟨_, .free (.undo nx) n .load, by simp [tstep, SChoice.base, hd], hs.setMem (hs.mem.setData n none) (.refl _),
        .free (.undo h2) h1 trivial, .refl _⟩
  | ret r =>
    cases ch <;> simp [ststep] at hst
    obtain ⟨rfl, rfl, rfl⟩ := hst
    exact same rfl .idle
  | err => cases ch <;> simp [ststep] at hst

end Verif.Stack
