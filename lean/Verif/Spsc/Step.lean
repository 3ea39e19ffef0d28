import Verif.Spsc.Inv

/-!
# `spsc_queue`: every step preserves the invariant (proof)
-/

namespace Verif.Spsc
open Lin

variable {α : Type} {cfg : Cfg} {s s' : St α} {pre : List (Option α)} {gone handed : Nat}

/-! ### What each thread knows at each program counter -/

/-- Range push: `done` is copied, `xs` (from slot `dst`) and `rest` (from slot 0) remain. -/
structure RP (cfg : Cfg) (s : St α) (start dst : Nat) (xs rest : List α) (second : Bool) (total : List α)
    (newW : SizeT) (done : List α) : Prop where
  tot : total = done ++ xs ++ rest
  free : Free cfg s total.length
  nw : newW.toNat = (s.acc.length + total.length) % cfg.size.toNat
  hdst : xs ≠ [] → dst = (s.acc.length + done.length) % cfg.size.toNat ∧ dst + xs.length ≤ cfg.size.toNat ∧
    (second = false → start = s.acc.length % cfg.size.toNat ∧ dst = start + done.length)
  hrest : rest ≠ [] → (s.acc.length + done.length + xs.length) % cfg.size.toNat = 0 ∧
    rest.length ≤ cfg.size.toNat
  hfirst : rest ≠ [] → done ++ xs ≠ []
  hsec : second = true → start = 0 ∧ dst < done.length

/-- The producer's knowledge. -/
def PLocal (cfg : Cfg) (s : St α) (pre : List (Option α)) : PC α → Prop
  | .idle | .ret _ | .push1 _ | .rng1 _ | .wav1 | .emp1 | .emp3 _ => pre = []
  | .push2 _ w next => pre = [] ∧ w.toNat = s.acc.length % cfg.size.toNat ∧
      next.toNat = (s.acc.length + 1) % cfg.size.toNat
  | .push3 _ w next => pre = [] ∧ w.toNat = s.acc.length % cfg.size.toNat ∧
      next.toNat = (s.acc.length + 1) % cfg.size.toNat ∧ Free cfg s 1
  | .push4 v next => pre = [some v] ∧ next.toNat = (s.acc.length + 1) % cfg.size.toNat
  | .rng2 _ w | .wav2 w | .emp2 w => pre = [] ∧ w.toNat = s.acc.length % cfg.size.toNat
  | .rngCopy start dst xs rest second total newW => xs ≠ [] ∧ ∃ done, pre = done.map some ∧
      RP cfg s start dst xs rest second total newW done
  | .rngUnwind i stop => ∃ d xs, xs ≠ [] ∧ pre = List.replicate d none ++ xs.map some ∧
      i = s.acc.length % cfg.size.toNat + d ∧ stop = i + xs.length ∧ stop ≤ cfg.size.toNat ∧
      Free cfg s pre.length
  | .rngStore total newW => pre = total.map some ∧
      newW.toNat = (s.acc.length + total.length) % cfg.size.toNat
  | _ => False

/-- Bulk pop: `len` are taken, `rem` (from slot `i`) and `rest` (from slot 0) remain. -/
structure BP (cfg : Cfg) (s : St α) (i rem rest len : Nat) (newR : SizeT) : Prop where
  hav : Have s (len + rem + rest)
  newR : newR.toNat = (s.rel + (len + rem + rest)) % cfg.size.toNat
  pos : rem ≠ 0 → i = (s.rel + len) % cfg.size.toNat ∧ i + rem ≤ cfg.size.toNat
  rest : rest ≠ 0 → (s.rel + len + rem) % cfg.size.toNat = 0 ∧ rest ≤ cfg.size.toNat

/-- A value of `write_index_` the consumer read (and, if `acq`, acquired). -/
def SeenW (cfg : Cfg) (s : St α) (acq : Bool) (w : SizeT) : Prop :=
  ∃ k, k ≤ s.vc.w ∧ w.toNat = (s.W k).cnt % cfg.size.toNat ∧ s.rel ≤ (s.W k).cnt ∧
    (acq = true → (s.W k).view.p ≤ s.vc.p)

/-- The consumer's knowledge. -/
def CLocal (cfg : Cfg) (s : St α) (gone handed : Nat) : PC α → Prop
  | .idle | .ret _ | .one1 | .bulk1 _ _ | .rav1 | .frt1 | .emp1 => gone = 0 ∧ handed = 0
  | .one2 w | .bulk2 _ _ w | .rav2 w | .frt2 w => gone = 0 ∧ handed = 0 ∧ SeenW cfg s true w
  | .emp2 w => gone = 0 ∧ handed = 0 ∧ SeenW cfg s false w
  | .emp3 r => gone = 0 ∧ handed = 0 ∧ r.toNat = s.rel % cfg.size.toNat
  | .one3 r | .frt4 r => gone = 0 ∧ handed = 0 ∧ r.toNat = s.rel % cfg.size.toNat ∧ Have s 1
  | .frt3 => gone = 0 ∧ handed = 0 ∧ Have s 1
  | .one4 v r => gone = 0 ∧ handed = 1 ∧ r.toNat = s.rel % cfg.size.toNat ∧ Have s 1 ∧ [v] <+: s.acc.drop s.rel
  | .one5 v r => gone = 1 ∧ handed = 1 ∧ r.toNat = s.rel % cfg.size.toNat ∧ [v] <+: s.acc.drop s.rel
  | .bulkRead _ i rem rest outs newR => gone = outs.length ∧ handed = outs.length ∧ rem ≠ 0 ∧
      BP cfg s i rem rest outs.length newR ∧ outs <+: s.acc.drop s.rel
  | .bulkDestroy _ i rem rest outs newR => gone + 1 = outs.length ∧ handed = outs.length ∧ rem ≠ 0 ∧
      BP cfg s i rem rest gone newR ∧ outs <+: s.acc.drop s.rel
  | .bulkStore outs newR => gone = outs.length ∧ handed = outs.length ∧
      newR.toNat = (s.rel + outs.length) % cfg.size.toNat ∧ outs <+: s.acc.drop s.rel
  | _ => False

/-! ### Stability -/

theorem Free.stable {m} (h : Free cfg s m) (hacc : s'.acc = s.acc) (hr : s.vp.r ≤ s'.vp.r)
    (hc : s.vp.c ≤ s'.vp.c) (hR : ∀ k, k ≤ s.vp.r → s'.R k = s.R k) : Free cfg s' m := by
  obtain ⟨k, h1, h2, h3⟩ := h
  exact ⟨k, by omega, by rw [hR k h1, hacc]; exact h2, by rw [hR k h1]; omega⟩

theorem Have.stable {m} (h : Have s m) (hrel : s'.rel = s.rel) (hw : s.vc.w ≤ s'.vc.w)
    (hp : s.vc.p ≤ s'.vc.p) (hW : ∀ k, k ≤ s.vc.w → s'.W k = s.W k) : Have s' m := by
  obtain ⟨k, h1, h2, h3⟩ := h
  exact ⟨k, by omega, by rw [hW k h1, hrel]; exact h2, by rw [hW k h1]; omega⟩

theorem SeenW.stable {b w} (h : SeenW cfg s b w) (hrel : s'.rel = s.rel) (hw : s.vc.w ≤ s'.vc.w)
    (hp : s.vc.p ≤ s'.vc.p) (hW : ∀ k, k ≤ s.vc.w → s'.W k = s.W k) : SeenW cfg s' b w := by
  obtain ⟨k, h1, h2, h3, h4⟩ := h
  refine ⟨k, by omega, by rw [hW k h1]; exact h2, by rw [hW k h1, hrel]; exact h3, fun hb => ?_⟩
  have := h4 hb
  rw [hW k h1]; omega

theorem RP.stable {a b xs rest second total newW done} (h : RP cfg s a b xs rest second total newW done)
    (hacc : s'.acc = s.acc) (hr : s.vp.r ≤ s'.vp.r) (hc : s.vp.c ≤ s'.vp.c)
    (hR : ∀ k, k ≤ s.vp.r → s'.R k = s.R k) : RP cfg s' a b xs rest second total newW done :=
  ⟨h.tot, h.free.stable hacc hr hc hR, by rw [hacc]; exact h.nw, by rw [hacc]; exact h.hdst,
    by rw [hacc]; exact h.hrest, h.hfirst, h.hsec⟩

theorem BP.stable {i rem rest len newR} (h : BP cfg s i rem rest len newR)
    (hrel : s'.rel = s.rel) (hw : s.vc.w ≤ s'.vc.w)
    (hp : s.vc.p ≤ s'.vc.p) (hW : ∀ k, k ≤ s.vc.w → s'.W k = s.W k) : BP cfg s' i rem rest len newR :=
  ⟨h.hav.stable hrel hw hp hW, by rw [hrel]; exact h.newR, by rw [hrel]; exact h.pos,
    by rw [hrel]; exact h.rest⟩

theorem PLocal.stable {p : PC α} (h : PLocal cfg s pre p) (hacc : s'.acc = s.acc) (hr : s.vp.r ≤ s'.vp.r)
    (hc : s.vp.c ≤ s'.vp.c) (hR : ∀ k, k ≤ s.vp.r → s'.R k = s.R k) : PLocal cfg s' pre p := by
  cases p <;> simp only [PLocal, hacc] at h ⊢ <;> try exact h
  · exact ⟨h.1, h.2.1, h.2.2.1, h.2.2.2.stable hacc hr hc hR⟩
  · obtain ⟨h1, d, h2, h3⟩ := h
    exact ⟨h1, d, h2, h3.stable hacc hr hc hR⟩
  · obtain ⟨d, xs, h1, h2, h3, h4, h5, h6⟩ := h
    exact ⟨d, xs, h1, h2, h3, h4, h5, h6.stable hacc hr hc hR⟩

theorem CLocal.stable {p : PC α} (h : CLocal cfg s gone handed p) (hacc : s.acc <+: s'.acc)
    (hrel : s'.rel = s.rel) (hw : s.vc.w ≤ s'.vc.w)
    (hp : s.vc.p ≤ s'.vc.p) (hW : ∀ k, k ≤ s.vc.w → s'.W k = s.W k) : CLocal cfg s' gone handed p := by
  have hpre : ∀ {l : List α}, l <+: s.acc.drop s.rel → l <+: s'.acc.drop s.rel := by
    intro l hl
    obtain ⟨t, ht⟩ := hacc
    rw [← ht, List.drop_append]
    exact hl.trans (List.prefix_append _ _)
  cases p <;> simp only [CLocal, hrel] at h ⊢ <;> try exact h
  · exact ⟨h.1, h.2.1, h.2.2.stable hrel hw hp hW⟩
  · exact ⟨h.1, h.2.1, h.2.2.stable hrel hw hp hW⟩
  · exact ⟨h.1, h.2.1, h.2.2.1, h.2.2.2.stable hrel hw hp hW⟩
  · exact ⟨h.1, h.2.1, h.2.2.1, h.2.2.2.1.stable hrel hw hp hW, hpre h.2.2.2.2⟩
  · exact ⟨h.1, h.2.1, h.2.2.1, hpre h.2.2.2⟩
  · exact ⟨h.1, h.2.1, h.2.2.stable hrel hw hp hW⟩
  · exact ⟨h.1, h.2.1, h.2.2.1, h.2.2.2.1.stable hrel hw hp hW, hpre h.2.2.2.2⟩
  · exact ⟨h.1, h.2.1, h.2.2.1, h.2.2.2.1.stable hrel hw hp hW, hpre h.2.2.2.2⟩
  · exact ⟨h.1, h.2.1, h.2.2.1, hpre h.2.2.2⟩
  · exact ⟨h.1, h.2.1, h.2.2.stable hrel hw hp hW⟩
  · exact ⟨h.1, h.2.1, h.2.2.stable hrel hw hp hW⟩
  · exact ⟨h.1, h.2.1, h.2.2.stable hrel hw hp hW⟩
  · exact ⟨h.1, h.2.1, h.2.2.1, h.2.2.2.stable hrel hw hp hW⟩

/-! ### Control flow of the bulk operations -/

theorem mod_succ {n c : Nat} (hn : 0 < n) : (c + 1) % n = if c % n + 1 < n then c % n + 1 else 0 := by
  have h := mod_add (c := c) (d := 1) hn hn
  have := Nat.mod_lt c hn
  rw [h]
  split
  · rfl
  · omega

theorem RP.next {a b xs rest second total newW done} (h : RP cfg s a b xs rest second total newW done) :
    PLocal cfg s (done.map some) (rngNext a b xs rest second total newW) := by
  unfold rngNext
  split
  · rename_i h1
    subst h1
    split
    · rename_i h2
      subst h2
      have : total = done := by simpa using h.tot
      subst this
      exact ⟨rfl, h.nw⟩
    · rename_i h2
      have h3 := h.hrest h2
      simp at h3
      refine ⟨h2, done, rfl, by simpa using h.tot, h.free, h.nw, fun _ => ⟨h3.1.symm, by omega, by simp⟩, by simp,
        by simp, fun _ => ⟨rfl, List.length_pos_iff.2 (by simpa using h.hfirst h2)⟩⟩
  · rename_i h1
    exact ⟨h1, done, rfl, h⟩

theorem RP.step {a b x xs rest second total newW done} (hpos : 0 < cfg.size.toNat)
    (h : RP cfg s a b (x :: xs) rest second total newW done) :
    RP cfg s a (b + 1) xs rest second total newW (done ++ [x]) := by
  obtain ⟨h1, h2, h3⟩ := h.hdst (by simp)
  simp at h2
  refine ⟨by simpa using h.tot, h.free, h.nw, fun hx => ⟨?_, by omega, fun hs => ?_⟩, fun hr => ?_,
    fun hr => by simp, fun hs => ⟨(h.hsec hs).1, by have := (h.hsec hs).2; simp; omega⟩⟩
  · have : 0 < xs.length := List.length_pos_iff.2 hx
    simp only [List.length_append, List.length_cons, List.length_nil]
    rw [← Nat.add_assoc, mod_succ hpos, ← h1, if_pos (by omega)]
  · have := h3 hs; simp; omega
  · have := h.hrest hr
    simp only [List.length_append, List.length_cons, List.length_nil] at this ⊢
    rw [show s.acc.length + (done.length + (0 + 1)) + xs.length = s.acc.length + done.length + (xs.length + 1) by omega]
    exact this

theorem rngPlan_local (h : SI cfg s [] gone handed) {vs : List α} {w r : SizeT} {j : Nat}
    (hw : w.toNat = s.acc.length % cfg.size.toNat) (hj : j ≤ s.vp.r) (hr : r.toNat = (s.R j).cnt % cfg.size.toNat)
    (h1 : (s.R j).cnt ≤ s.rel) (h2 : s.acc.length < (s.R j).cnt + cfg.size.toNat)
    (h3 : (s.R j).view.c ≤ s.vp.c) :
    PLocal cfg s [] (rngPlan cfg vs w r) ∧
    (∀ total newW, (∃ start dst xs rest second, rngPlan cfg vs w r = .rngCopy start dst xs rest second total newW) ∨
        rngPlan cfg vs w r = .rngStore total newW →
      total = vs.take ((s.R j).cnt + cfg.size.toNat - 1 - s.acc.length)) ∧
    (∀ x, rngPlan cfg vs w r = .ret x → x = .pushedMany 0 ∧
      s.acc.length + 1 = (s.R j).cnt + cfg.size.toNat) := by
  have hpos := h.pos
  have hsmall := h.small
  have hhl := h.hl
  have hwn : w.toNat < cfg.size.toNat := by rw [hw]; exact Nat.mod_lt _ hpos
  have hav := writeAvail_exact (d := s.acc.length - (s.R j).cnt) (by omega) hr
    (by rw [hw]; congr 1; omega)
  unfold rngPlan
  generalize hA : writeAvail w r cfg.size = avail at hav
  simp only []
  split
  · rename_i h0
    have : avail.toNat = 0 := by rw [h0]; rfl
    exact ⟨rfl, by simp, by intro x hx; cases hx; exact ⟨rfl, by omega⟩⟩
  · have hlt : min vs.length avail.toNat < 2 ^ 63 := by omega
    have hc : (BitVec.ofNat 64 (min vs.length avail.toNat)).toNat = min vs.length avail.toNat := by
      rw [BitVec.toNat_ofNat]; exact Nat.mod_eq_of_lt (by omega)
    generalize hcnt : BitVec.ofNat 64 (min vs.length avail.toNat) = cnt at hc
    have hsum : (w + cnt).toNat = w.toNat + cnt.toNat := by
      rw [BitVec.toNat_add]; exact Nat.mod_eq_of_lt (by omega)
    have htl : (vs.take cnt.toNat).length = cnt.toNat := by simp; omega
    have htot : vs.take cnt.toNat = vs.take ((s.R j).cnt + cfg.size.toNat - 1 - s.acc.length) := by
      rw [hc, show avail.toNat = (s.R j).cnt + cfg.size.toNat - 1 - s.acc.length by omega]
      rcases Nat.le_total vs.length ((s.R j).cnt + cfg.size.toNat - 1 - s.acc.length) with hle | hle
      · rw [Nat.min_eq_left hle, List.take_of_length_le (Nat.le_refl _), List.take_of_length_le hle]
      · rw [Nat.min_eq_right hle]
    have hmod := mod_add (c := s.acc.length) (d := cnt.toNat) (n := cfg.size.toNat) (by omega) hpos
    rw [← hw] at hmod
    have hfree : Free cfg s (vs.take cnt.toNat).length := ⟨j, hj, by rw [htl]; omega, h3⟩
    have htotal : ∀ {a b : Nat} {xs rest : List α} {second : Bool} {T : List α} {nw : SizeT} {total newW},
        ((∃ start dst xs' rest' second', rngNext a b xs rest second T nw =
          .rngCopy start dst xs' rest' second' total newW) ∨ rngNext a b xs rest second T nw = .rngStore total newW) →
        total = T := by
      intro a b xs rest second T nw total newW hh
      unfold rngNext at hh
      split at hh
      · split at hh
        · rcases hh with ⟨_, _, _, _, _, hh⟩ | hh <;> cases hh; rfl
        · rcases hh with ⟨_, _, _, _, _, hh⟩ | hh <;> cases hh; rfl
      · rcases hh with ⟨_, _, _, _, _, hh⟩ | hh <;> cases hh; rfl
    have hret : ∀ {a b : Nat} {xs rest : List α} {second : Bool} {T : List α} {nw : SizeT} {x},
        rngNext a b xs rest second T nw ≠ .ret x := by
      intro a b xs rest second T nw x hh
      unfold rngNext at hh
      split at hh
      · split at hh <;> cases hh
      · cases hh
    split
    · rename_i hgt
      have hgt : cfg.size.toNat < (w + cnt).toNat := by simpa [BitVec.lt_def] using hgt
      have h0 : (cfg.size - w).toNat = cfg.size.toNat - w.toNat := by
        rw [BitVec.toNat_sub]; have := cfg.size.isLt; omega
      have hn : (w + cnt - cfg.size).toNat = w.toNat + cnt.toNat - cfg.size.toNat := by
        rw [BitVec.toNat_sub, hsum]; omega
      refine ⟨RP.next (done := []) ⟨by simp, hfree, ?_, fun _ => ⟨by simpa using hw, ?_, fun _ => ⟨hw, by simp⟩⟩, fun _ => ⟨?_, ?_⟩,
          fun _ h4 => ?_, by simp⟩,
        fun total newW hh => ?_, fun x hx => absurd hx hret⟩
      · rw [htl, hn]; split at hmod <;> omega
      · simp [h0]; omega
      · have : s.acc.length + ([] : List α).length + ((vs.take cnt.toNat).take (cfg.size - w).toNat).length =
            s.acc.length + (cfg.size.toNat - w.toNat) := by
          rw [List.length_take, htl, h0]; simp; omega
        rw [this]
        have hm2 := mod_add (c := s.acc.length) (d := cfg.size.toNat - w.toNat) (n := cfg.size.toNat) (by omega) hpos
        rw [hm2, ← hw]
        split <;> omega
      · simp [h0]; omega
      · have h5 := congrArg List.length h4
        simp only [List.nil_append, List.length_take, htl, h0, List.length_nil] at h5
        omega
      · rw [htotal hh, htot]
    · rename_i hgt
      have hgt : (w + cnt).toNat ≤ cfg.size.toNat := by simpa [BitVec.lt_def] using hgt
      refine ⟨RP.next (done := []) ⟨by simp, hfree, ?_, fun _ => ⟨by simpa using hw, ?_, fun _ => ⟨hw, by simp⟩⟩, by simp, by simp, by simp⟩,
        fun total newW hh => ?_, fun x hx => absurd hx hret⟩
      · rw [htl]
        split
        · rename_i he
          have : (w + cnt).toNat = cfg.size.toNat := by rw [he]
          simp only [BitVec.ofNat_eq_ofNat, BitVec.toNat_ofNat]
          split at hmod <;> omega
        · rename_i he
          have : (w + cnt).toNat ≠ cfg.size.toNat := fun h => he (BitVec.eq_of_toNat_eq h)
          rw [hsum]
          split at hmod <;> omega
      · rw [htl]; omega
      · rw [htotal hh, htot]

theorem BP.next {copy : Bool} {i rem rest newR} {outs : List α}
    (h : BP cfg s i rem rest outs.length newR) (ho : outs <+: s.acc.drop s.rel) :
    CLocal cfg s outs.length outs.length (bulkNext copy i rem rest outs newR) := by
  unfold bulkNext
  split
  · rename_i h1
    subst h1
    split
    · rename_i h2
      subst h2
      exact ⟨rfl, rfl, by simpa using h.newR, ho⟩
    · rename_i h2
      have h3 := h.rest h2
      simp at h3
      refine ⟨rfl, rfl, h2, ⟨by simpa using h.hav, by simpa using h.newR, fun _ => ⟨h3.1.symm, by omega⟩, by simp⟩, ho⟩
  · rename_i h1
    exact ⟨rfl, rfl, h1, h, ho⟩

theorem BP.step {i rem rest len newR} (hpos : 0 < cfg.size.toNat) (h : BP cfg s i rem rest len newR) (hr : rem ≠ 0) :
    BP cfg s (i + 1) (rem - 1) rest (len + 1) newR := by
  obtain ⟨h1, h2⟩ := h.pos hr
  refine ⟨?_, ?_, fun hx => ⟨?_, by omega⟩, fun hx => ?_⟩
  · rw [show len + 1 + (rem - 1) + rest = len + rem + rest by omega]; exact h.hav
  · rw [show len + 1 + (rem - 1) + rest = len + rem + rest by omega]; exact h.newR
  · rw [← Nat.add_assoc, mod_succ hpos, ← h1, if_pos (by omega)]
  · have := h.rest hx
    rw [show s.rel + (len + 1) + (rem - 1) = s.rel + len + rem by omega]; exact this

theorem bulkPlan_local (h : SI cfg s pre 0 0) {copy : Bool} {lim : Option Nat} {w r : SizeT} {k : Nat}
    (hr : r.toNat = s.rel % cfg.size.toNat) (hk : k ≤ s.vc.w) (hw : w.toNat = (s.W k).cnt % cfg.size.toNat)
    (h1 : s.rel ≤ (s.W k).cnt) (h3 : (s.W k).view.p ≤ s.vc.p) :
    CLocal cfg s 0 0 (bulkPlan cfg copy lim w r : PC α) ∧
    (∀ x, bulkPlan cfg copy lim w r = (.ret x : PC α) → x = .poppedMany [] ∧ (s.W k).cnt = s.rel) ∧
    (∀ c i rem rest outs newR, bulkPlan cfg copy lim w r = (.bulkRead c i rem rest outs newR : PC α) →
      c = copy ∧ outs = [] ∧ rem + rest = atMost lim ((s.W k).cnt - s.rel)) ∧
    (∀ outs newR, bulkPlan cfg copy lim w r = (.bulkStore outs newR : PC α) →
      outs = [] ∧ lim = some 0) := by
  have hpos := h.pos
  have hsmall := h.small
  have hroom := h.room
  have hcl := h.cnt_le (k := k) (Nat.le_trans hk h.vcw)
  have hrn : r.toNat < cfg.size.toNat := by rw [hr]; exact Nat.mod_lt _ hpos
  have hav := readAvail_exact (c := s.rel) (d := (s.W k).cnt - s.rel) (by omega) hr
    (by rw [hw]; congr 1; omega)
  unfold bulkPlan
  generalize hA : readAvail w r cfg.size = avail at hav
  simp only []
  split
  · rename_i h0
    have : avail.toNat = 0 := by rw [h0]; rfl
    refine ⟨⟨rfl, rfl⟩, ?_, by simp, by simp⟩
    intro x hx; cases hx; exact ⟨rfl, by omega⟩
  · rename_i h0
    have hne : avail.toNat ≠ 0 := fun h => h0 (BitVec.eq_of_toNat_eq (by simpa using h))
    have hle : atMost lim avail.toNat ≤ avail.toNat := by cases lim <;> simp [atMost]; omega
    have hc : (BitVec.ofNat 64 (atMost lim avail.toNat)).toNat = atMost lim avail.toNat := by
      rw [BitVec.toNat_ofNat]; exact Nat.mod_eq_of_lt (by omega)
    generalize hcnt : BitVec.ofNat 64 (atMost lim avail.toNat) = cnt at hc
    have hcle : cnt.toNat ≤ (s.W k).cnt - s.rel := by omega
    have hsum : (r + cnt).toNat = r.toNat + cnt.toNat := by
      rw [BitVec.toNat_add]; exact Nat.mod_eq_of_lt (by omega)
    have hmod := mod_add (c := s.rel) (d := cnt.toNat) (n := cfg.size.toNat) (by omega) hpos
    rw [← hr] at hmod
    have hhave : Have s cnt.toNat := ⟨k, hk, by omega, h3⟩
    have hzero : cnt.toNat = 0 → lim = some 0 := by
      intro hz
      rw [hc] at hz
      cases lim with
      | none => simp only [atMost] at hz; omega
      | some l => simp only [atMost] at hz; congr 1; omega
    have hret : ∀ {c : Bool} {i rem rest : Nat} {o : List α} {nr : SizeT} {x}, bulkNext c i rem rest o nr ≠ .ret x := by
      intro c i rem rest o nr x hh
      unfold bulkNext at hh
      split at hh
      · split at hh <;> cases hh
      · cases hh
    have hread : ∀ {c : Bool} {i rem rest : Nat} {o : List α} {nr : SizeT} {c' i' rem' rest' o' nr'},
        bulkNext c i rem rest o nr = .bulkRead c' i' rem' rest' o' nr' → c' = c ∧ o' = o ∧ rem' + rest' = rem + rest := by
      intro c i rem rest o nr c' i' rem' rest' o' nr' hh
      unfold bulkNext at hh
      split at hh
      · split at hh <;> cases hh
        exact ⟨rfl, rfl, by omega⟩
      · cases hh; exact ⟨rfl, rfl, rfl⟩
    have hstore : ∀ {c : Bool} {i rem rest : Nat} {o : List α} {nr : SizeT} {o' nr'},
        bulkNext c i rem rest o nr = .bulkStore o' nr' → o' = o ∧ rem + rest = 0 := by
      intro c i rem rest o nr o' nr' hh
      unfold bulkNext at hh
      split at hh
      · split at hh <;> cases hh
        exact ⟨rfl, by omega⟩
      · cases hh
    have hlimeq : cnt.toNat = atMost lim ((s.W k).cnt - s.rel) := by rw [hc, hav]
    split
    · rename_i hgt
      have hgt : cfg.size.toNat < (r + cnt).toNat := by simpa [BitVec.lt_def] using hgt
      have e0 : (cfg.size - r).toNat = cfg.size.toNat - r.toNat := by
        rw [BitVec.toNat_sub]; have := cfg.size.isLt; omega
      have e1 : (cnt - (cfg.size - r)).toNat = cnt.toNat - (cfg.size.toNat - r.toNat) := by
        rw [BitVec.toNat_sub, e0]; have := cnt.isLt; omega
      have hn : (r + cnt - cfg.size).toNat = r.toNat + cnt.toNat - cfg.size.toNat := by
        rw [BitVec.toNat_sub, hsum]; omega
      have esum : (cfg.size - r).toNat + (cnt - (cfg.size - r)).toNat = cnt.toNat := by rw [e0, e1]; omega
      refine ⟨BP.next (outs := []) ⟨?_, ?_, fun _ => ⟨by simpa using hr, by omega⟩, fun _ => ⟨?_, by omega⟩⟩ (List.nil_prefix),
        fun x hx => absurd hx hret, fun c i rem rest outs newR hh => ?_, fun outs newR hh => ?_⟩
      · simp only [List.length_nil, Nat.zero_add]; rw [esum]; exact hhave
      · simp only [List.length_nil, Nat.zero_add]; rw [esum, hn]; split at hmod <;> omega
      · have hm2 := mod_add (c := s.rel) (d := cfg.size.toNat - r.toNat) (n := cfg.size.toNat) (by omega) hpos
        simp only [List.length_nil, Nat.add_zero]
        rw [e0, hm2, ← hr]
        split <;> omega
      · obtain ⟨h5, h6, h7⟩ := hread hh
        exact ⟨h5, h6, by omega⟩
      · obtain ⟨h5, h6⟩ := hstore hh
        exact ⟨h5, hzero (by omega)⟩
    · rename_i hgt
      have hgt : (r + cnt).toNat ≤ cfg.size.toNat := by simpa [BitVec.lt_def] using hgt
      refine ⟨BP.next (outs := []) ⟨?_, ?_, fun _ => ⟨by simpa using hr, by omega⟩, by simp⟩ (List.nil_prefix),
        fun x hx => absurd hx hret, fun c i rem rest outs newR hh => ?_, fun outs newR hh => ?_⟩
      · simpa using hhave
      · simp only [List.length_nil, Nat.zero_add, Nat.add_zero]
        split
        · rename_i he
          have : (r + cnt).toNat = cfg.size.toNat := by rw [he]
          simp only [BitVec.ofNat_eq_ofNat, BitVec.toNat_ofNat]
          split at hmod <;> omega
        · rename_i he
          have : (r + cnt).toNat ≠ cfg.size.toNat := fun h => he (BitVec.eq_of_toNat_eq h)
          rw [hsum]
          split at hmod <;> omega
      · obtain ⟨h5, h6, h7⟩ := hread hh
        exact ⟨h5, h6, by omega⟩
      · obtain ⟨h5, h6⟩ := hstore hh
        exact ⟨h5, hzero (by omega)⟩

end Verif.Spsc
