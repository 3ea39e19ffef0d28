import Verif.Spsc.Model

/-!
# `spsc_queue`: invariant of the machine (proof)
-/

namespace Verif.Spsc
open Lin

variable {α : Type}

/-- Number of elements released by the consumer so far. -/
def St.rel (s : St α) : Nat := (s.R s.rlast).cnt

/-- Shared-state invariant. `pre`: contents of the slots behind the published ones that the producer has touched
and not yet published; `handed` elements at the front were handed out, `gone` of them destroyed, and none of
them released yet. -/
structure SI (cfg : Cfg) (s : St α) (pre : List (Option α)) (gone handed : Nat) : Prop where
  pos : 0 < cfg.size.toNat
  small : cfg.size.toNat ≤ 2 ^ 63
  wval : ∀ k, k ≤ s.wlast → (s.W k).val.toNat = (s.W k).cnt % cfg.size.toNat
  wmono : ∀ j k, j ≤ k → k ≤ s.wlast → (s.W j).cnt ≤ (s.W k).cnt
  wcnt : (s.W s.wlast).cnt = s.acc.length
  rval : ∀ k, k ≤ s.rlast → (s.R k).val.toNat = (s.R k).cnt % cfg.size.toNat
  rmono : ∀ j k, j ≤ k → k ≤ s.rlast → (s.R j).cnt ≤ (s.R k).cnt
  vpw : s.vp.w = s.wlast
  vpr : s.vp.r ≤ s.rlast
  vcw : s.vc.w ≤ s.wlast
  vcr : s.vc.r = s.rlast
  wview : ∀ k, k ≤ s.wlast → (s.W k).view.w ≤ s.wlast ∧ (s.W k).view.r ≤ s.rlast ∧
    (s.W k).view.p ≤ s.vp.p ∧ (s.W k).view.c ≤ s.vc.c
  rview : ∀ k, k ≤ s.rlast → (s.R k).view.w ≤ s.wlast ∧ (s.R k).view.r ≤ s.rlast ∧
    (s.R k).view.p ≤ s.vp.p ∧ (s.R k).view.c ≤ s.vc.c
  vpc : s.vp.c ≤ s.vc.c
  vcp : s.vc.p ≤ s.vp.p
  seenW : s.rel + handed ≤ (s.W s.vc.w).cnt
  seenR : s.acc.length + pre.length < (s.R s.vp.r).cnt + cfg.size.toNat
  lp : ∀ i, s.lastP i ≤ s.vp.p
  lc : ∀ i, s.lastC i ≤ s.vc.c
  i1 : ∀ k, k ≤ s.wlast → ∀ q, s.rel ≤ q → q < (s.W k).cnt → s.lastP (q % cfg.size.toNat) ≤ (s.W k).view.p
  i2 : ∀ k, k ≤ s.rlast → ∀ q, s.acc.length ≤ q → q < (s.R k).cnt + cfg.size.toNat →
    s.lastC (q % cfg.size.toNat) ≤ (s.R k).view.c
  room : s.acc.length + pre.length < s.rel + cfg.size.toNat
  out : s.out = s.acc.take (s.rel + handed)
  gh : gone ≤ handed
  hl : s.rel + handed ≤ s.acc.length
  live : ∀ q, s.rel + gone ≤ q → q < s.acc.length → s.cell (q % cfg.size.toNat) = s.acc[q]?
  preLive : ∀ j v, pre[j]? = some (some v) → s.cell ((s.acc.length + j) % cfg.size.toNat) = some v
  dead : cfg.trivial = false → ∀ q, s.rel ≤ q → q < s.rel + cfg.size.toNat →
    (q < s.rel + gone ∨ s.acc.length ≤ q ∧ ∀ v, pre[q - s.acc.length]? ≠ some (some v)) →
    s.cell (q % cfg.size.toNat) = none
  bal : cfg.trivial = false →
    s.ctor = s.dtor + (s.acc.length - (s.rel + gone)) + pre.countP (·.isSome)

/-- The producer knows that `m` more slots are free, and acquired the accesses that freed them. -/
def Free (cfg : Cfg) (s : St α) (m : Nat) : Prop :=
  ∃ k, k ≤ s.vp.r ∧ s.acc.length + m < (s.R k).cnt + cfg.size.toNat ∧ (s.R k).view.c ≤ s.vp.c

/-- The consumer knows that `m` elements are there, and acquired their construction. -/
def Have (s : St α) (m : Nat) : Prop :=
  ∃ k, k ≤ s.vc.w ∧ s.rel + m ≤ (s.W k).cnt ∧ (s.W k).view.p ≤ s.vc.p

theorem Free.mono {cfg : Cfg} {s : St α} {m m' : Nat} (h : Free cfg s m) (hm : m' ≤ m) : Free cfg s m' := by
  obtain ⟨k, h1, h2, h3⟩ := h; exact ⟨k, h1, by omega, h3⟩

theorem Have.mono {s : St α} {m m' : Nat} (h : Have s m) (hm : m' ≤ m) : Have s m' := by
  obtain ⟨k, h1, h2, h3⟩ := h; exact ⟨k, h1, by omega, h3⟩

section
variable {cfg : Cfg} {s : St α} {pre : List (Option α)} {gone handed : Nat}

theorem SI.rel_le (h : SI cfg s pre gone handed) {k} (hk : k ≤ s.rlast) : (s.R k).cnt ≤ s.rel :=
  h.rmono k _ hk (Nat.le_refl _)

theorem SI.cnt_le (h : SI cfg s pre gone handed) {k} (hk : k ≤ s.wlast) : (s.W k).cnt ≤ s.acc.length := by
  rw [← h.wcnt]; exact h.wmono k _ hk (Nat.le_refl _)

theorem SI.have_le (h : SI cfg s pre gone handed) {m} (hm : Have s m) : s.rel + m ≤ s.acc.length := by
  obtain ⟨k, h1, h2, _⟩ := hm
  exact Nat.le_trans h2 (h.cnt_le (Nat.le_trans h1 h.vcw))

theorem SI.free_lt (h : SI cfg s pre gone handed) {m} (hm : Free cfg s m) :
    s.acc.length + m < s.rel + cfg.size.toNat := by
  obtain ⟨k, h1, h2, _⟩ := hm
  have := h.rel_le (Nat.le_trans h1 h.vpr)
  omega

theorem SI.free_lt' (h : SI cfg s pre gone handed) {m} (hm : Free cfg s m) :
    s.acc.length + m < (s.R s.vp.r).cnt + cfg.size.toNat := by
  obtain ⟨k, h1, h2, _⟩ := hm
  have := h.rmono _ _ h1 h.vpr
  omega

theorem SI.have_le' (h : SI cfg s pre gone handed) {m} (hm : Have s m) : s.rel + m ≤ (s.W s.vc.w).cnt := by
  obtain ⟨k, h1, h2, _⟩ := hm
  have := h.wmono _ _ h1 h.vcw
  omega

/-! ### Loads -/

theorem St.vpw_self (s : St α) {j} (h : s.vp.w = j) : { s with vp := { s.vp with w := j } } = s := by
  subst h; rfl

theorem St.vcr_self (s : St α) {j} (h : s.vc.r = j) : { s with vc := { s.vc with r := j } } = s := by
  subst h; rfl

theorem SI.loadWP (h : SI cfg s pre gone handed) {j s' w} (hl : s.loadWP j = some (s', w)) :
    s' = s ∧ w.toNat = s.acc.length % cfg.size.toNat := by
  unfold St.loadWP at hl
  split at hl
  · rename_i hj
    have : j = s.wlast := by have := h.vpw; omega
    subst this
    simp only [Option.some.injEq, Prod.mk.injEq] at hl
    obtain ⟨rfl, rfl⟩ := hl
    exact ⟨s.vpw_self h.vpw, by rw [h.wval _ (Nat.le_refl _), h.wcnt]⟩
  · simp at hl

theorem SI.loadRC (h : SI cfg s pre gone handed) {j s' r} (hl : s.loadRC j = some (s', r)) :
    s' = s ∧ r.toNat = s.rel % cfg.size.toNat := by
  unfold St.loadRC at hl
  split at hl
  · rename_i hj
    have : j = s.rlast := by have := h.vcr; omega
    subst this
    simp only [Option.some.injEq, Prod.mk.injEq] at hl
    obtain ⟨rfl, rfl⟩ := hl
    exact ⟨s.vcr_self h.vcr, by rw [h.rval _ (Nat.le_refl _)]; rfl⟩
  · simp at hl

theorem SI.setVp (h : SI cfg s pre gone handed) (v : View) (hp : v.p = s.vp.p) (hc : s.vp.c ≤ v.c ∧ v.c ≤ s.vc.c)
    (hw : v.w = s.wlast) (hr : s.vp.r ≤ v.r ∧ v.r ≤ s.rlast) : SI cfg { s with vp := v } pre gone handed :=
  { h with
    vpw := hw
    vpr := hr.2
    wview := fun k hk => by have := h.wview k hk; simp only [hp]; exact this
    rview := fun k hk => by have := h.rview k hk; simp only [hp]; exact this
    vpc := hc.2
    vcp := by simp only [hp]; exact h.vcp
    lp := fun i => by simp only [hp]; exact h.lp i
    seenR := by
      have := h.rmono _ _ hr.1 hr.2
      have := h.seenR
      show s.acc.length + pre.length < (s.R v.r).cnt + _
      omega }

theorem SI.setVc (h : SI cfg s pre gone handed) (v : View) (hc : v.c = s.vc.c) (hp : s.vc.p ≤ v.p ∧ v.p ≤ s.vp.p)
    (hr : v.r = s.rlast) (hw : s.vc.w ≤ v.w ∧ v.w ≤ s.wlast) : SI cfg { s with vc := v } pre gone handed :=
  { h with
    vcr := hr
    vcw := hw.2
    wview := fun k hk => by have := h.wview k hk; simp only [hc]; exact this
    rview := fun k hk => by have := h.rview k hk; simp only [hc]; exact this
    vcp := hp.2
    vpc := by simp only [hc]; exact h.vpc
    lc := fun i => by simp only [hc]; exact h.lc i
    seenW := by
      have := h.wmono _ _ hw.1 hw.2
      have := h.seenW
      show s.rel + handed ≤ (s.W v.w).cnt
      omega }

/-- What a load of `read_index_` by the producer yields. -/
theorem SI.loadRP (h : SI cfg s pre gone handed) {acq j s' r} (hl : s.loadRP acq j = some (s', r)) :
    ∃ v, s' = { s with vp := v } ∧ SI cfg s' pre gone handed ∧ s.vp.r ≤ j ∧ j ≤ s.rlast ∧ j ≤ v.r ∧
      r.toNat = (s.R j).cnt % cfg.size.toNat ∧ (s.R j).cnt ≤ s.rel ∧
      s.acc.length < (s.R j).cnt + cfg.size.toNat ∧ (acq = true → (s.R j).view.c ≤ v.c) ∧ s.vp.c ≤ v.c := by
  unfold St.loadRP at hl
  split at hl
  · rename_i hj
    simp only [Option.some.injEq, Prod.mk.injEq] at hl
    obtain ⟨rfl, rfl⟩ := hl
    have h1 := h.rview j hj.2
    have h2 := h.rmono _ _ hj.1 hj.2
    have h3 := h.seenR
    have h4 := h.vpw
    have h5 := h.vpc
    refine ⟨_, rfl, h.setVp _ ?_ ?_ ?_ ?_, hj.1, hj.2, ?_, h.rval j hj.2, h.rel_le hj.2, by omega, ?_, ?_⟩ <;>
      cases acq <;> simp [View.join] <;> omega
  · simp at hl

/-- What a load of `write_index_` by the consumer yields. -/
theorem SI.loadWC (h : SI cfg s pre gone handed) {acq j s' w} (hl : s.loadWC acq j = some (s', w)) :
    ∃ v, s' = { s with vc := v } ∧ SI cfg s' pre gone handed ∧ s.vc.w ≤ j ∧ j ≤ s.wlast ∧ j ≤ v.w ∧
      w.toNat = (s.W j).cnt % cfg.size.toNat ∧ s.rel ≤ (s.W j).cnt ∧
      (s.W j).cnt ≤ s.acc.length ∧ (acq = true → (s.W j).view.p ≤ v.p) ∧ s.vc.p ≤ v.p := by
  unfold St.loadWC at hl
  split at hl
  · rename_i hj
    simp only [Option.some.injEq, Prod.mk.injEq] at hl
    obtain ⟨rfl, rfl⟩ := hl
    have h1 := h.wview j hj.2
    have h2 := h.wmono _ _ hj.1 hj.2
    have h3 := h.seenW
    have h4 := h.vcr
    have h5 := h.vcp
    refine ⟨_, rfl, h.setVc _ ?_ ?_ ?_ ?_, hj.1, hj.2, ?_, h.wval j hj.2, by omega, h.cnt_le hj.2, ?_, ?_⟩ <;>
      cases acq <;> simp [View.join] <;> omega
  · simp at hl

theorem SI.syncP (h : SI cfg s pre gone handed) :
    ∃ v, { s with vp := s.vp.join s.vc } = { s with vp := v } ∧ SI cfg { s with vp := v } pre gone handed ∧
      s.vp.c ≤ v.c := by
  have h1 := h.vpw
  have h2 := h.vpr
  have h3 := h.vcw
  have h4 := h.vcr
  have h5 := h.vpc
  have h6 := h.vcp
  refine ⟨_, rfl, h.setVp _ ?_ ?_ ?_ ?_, ?_⟩ <;> simp [View.join] <;> omega

theorem SI.syncC (h : SI cfg s pre gone handed) :
    ∃ v, { s with vc := s.vc.join s.vp } = { s with vc := v } ∧ SI cfg { s with vc := v } pre gone handed ∧
      s.vc.p ≤ v.p := by
  have h1 := h.vpw
  have h2 := h.vpr
  have h3 := h.vcw
  have h4 := h.vcr
  have h5 := h.vpc
  have h6 := h.vcp
  refine ⟨_, rfl, h.setVc _ ?_ ?_ ?_ ?_, ?_⟩ <;> simp [View.join] <;> omega

/-! ### Slot accesses of the producer -/

theorem SI.touchP (h : SI cfg s pre gone handed) {q : Nat} (h1 : s.acc.length ≤ q) {m} (hf : Free cfg s m)
    (h2 : q < s.acc.length + m) :
    ∃ s', s.touchP cfg (q % cfg.size.toNat) = some s' ∧ SI cfg s' pre gone handed ∧
      s' = { s with vp := { s.vp with p := s.vp.p + 1 }
                    lastP := upd s.lastP (q % cfg.size.toNat) (s.vp.p + 1) } := by
  have hfl := h.free_lt hf
  obtain ⟨k, hk, hk1, hk2⟩ := hf
  have h3 := h.i2 k (Nat.le_trans hk h.vpr) q h1 (by omega)
  have h4 : q % cfg.size.toNat < cfg.size.toNat := Nat.mod_lt _ h.pos
  refine ⟨_, by rw [St.touchP, if_pos ⟨h4, by omega⟩], ?_, rfl⟩
  refine { h with wview := ?_, rview := ?_, vcp := ?_, lp := ?_, i1 := ?_, vpw := h.vpw, vpr := h.vpr }
  · intro k hk; have := h.wview k hk; simp only; omega
  · intro k hk; have := h.rview k hk; simp only; omega
  · have := h.vcp; simp only; omega
  · intro i
    have := h.lp i
    simp only [upd_apply]
    split <;> omega
  · intro k hk q' hq1 hq2
    have hq1 : s.rel ≤ q' := hq1
    have hq2 : q' < (s.W k).cnt := hq2
    have h5 := h.cnt_le hk
    have h6 : q % cfg.size.toNat ≠ q' % cfg.size.toNat := fun he => by
      have := mod_inj (D := s.rel) (by have := h.hl; omega) (by omega) hq1 (by omega) he
      omega
    simp only [upd_ne _ _ _ h6.symm]
    exact h.i1 k hk q' hq1 hq2

theorem SI.construct (h : SI cfg s pre gone handed) (v : α) (hf : Free cfg s (pre.length + 1)) :
    ∃ s', s.construct cfg ((s.acc.length + pre.length) % cfg.size.toNat) v = some s' ∧
      SI cfg s' (pre ++ [some v]) gone handed ∧ s'.acc = s.acc ∧ s'.R = s.R ∧ s'.rlast = s.rlast ∧
      s'.vc = s.vc ∧ s'.W = s.W ∧ s'.wlast = s.wlast ∧ s'.out = s.out ∧ s.vp.c ≤ s'.vp.c ∧ s.vp.r ≤ s'.vp.r := by
  obtain ⟨s', h1, h2, h3⟩ := h.touchP (q := s.acc.length + pre.length) (by omega) hf (by omega)
  have hfl := h.free_lt hf
  have hhl := h.hl
  have hcell : cfg.trivial = false → s.cell ((s.acc.length + pre.length) % cfg.size.toNat) = none := by
    intro ht
    refine h.dead ht _ (by omega) (by omega) (.inr ⟨by omega, fun v => ?_⟩)
    rw [List.getElem?_eq_none (by omega)]; simp
  have hne : ¬ ((s.cell ((s.acc.length + pre.length) % cfg.size.toNat)).isSome && !cfg.trivial) = true := by
    cases ht : cfg.trivial with
    | true => simp
    | false => simp [hcell ht]
  refine ⟨_, by rw [St.construct, if_neg hne, h1]; rfl, ?_, ?_⟩
  · have e1 : s'.acc = s.acc := by rw [h3]
    have e2 : s'.rel = s.rel := by rw [h3]; rfl
    have e3 : s'.cell = s.cell := by rw [h3]
    have hfl' := h.free_lt' hf
    refine { h2 with seenR := ?_, room := ?_, live := ?_, preLive := ?_, dead := ?_, bal := ?_ }
    · show s'.acc.length + _ < (s'.R s'.vp.r).cnt + _
      rw [h3]; simp at hfl' ⊢; omega
    · show s'.acc.length + _ < s'.rel + _
      rw [e1, e2]; simp; omega
    · intro q hq1 hq2
      have hq1 : s.rel + gone ≤ q := by rw [← e2]; exact hq1
      have hq2 : q < s.acc.length := by rw [← e1]; exact hq2
      have hne : q % cfg.size.toNat ≠ (s.acc.length + pre.length) % cfg.size.toNat := fun he => by
        have := mod_inj (D := s.rel) (by omega) (by omega) (by omega) (by omega) he
        omega
      show upd s'.cell _ _ _ = s'.acc[q]?
      rw [upd_ne _ _ _ hne, e3, e1]
      exact h.live q hq1 hq2
    · intro j x hj
      show upd s'.cell _ _ ((s'.acc.length + j) % _) = some x
      rw [e1, e3]
      by_cases hjl : j < pre.length
      · have hne : (s.acc.length + j) % cfg.size.toNat ≠ (s.acc.length + pre.length) % cfg.size.toNat :=
          fun he => by
            have := mod_inj (D := s.rel) (by omega) (by omega) (by omega) (by omega) he
            omega
        rw [upd_ne _ _ _ hne]
        rw [List.getElem?_append_left hjl] at hj
        exact h.preLive j x hj
      · have : j = pre.length := by
          have : j < (pre ++ [some v]).length := by
            rcases Nat.lt_or_ge j (pre ++ [some v]).length with h | h
            · exact h
            · rw [List.getElem?_eq_none h] at hj; simp at hj
          simp at this; omega
        subst this
        simp at hj
        subst hj
        exact upd_self _ _ _
    · intro ht q hq1 hq2 hq3
      have hq1 : s.rel ≤ q := by rw [← e2]; exact hq1
      have hq2 : q < s.rel + cfg.size.toNat := by rw [← e2]; exact hq2
      have hq3 : q < s.rel + gone ∨
          s.acc.length ≤ q ∧ ∀ x, (pre ++ [some v])[q - s.acc.length]? ≠ some (some x) := by
        rw [← e2, ← e1]; exact hq3
      have hgh := h.gh
      have hne : q % cfg.size.toNat ≠ (s.acc.length + pre.length) % cfg.size.toNat := fun he => by
        have he := mod_inj (D := s.rel) (by omega) (by omega) (by omega) (by omega) he
        rcases hq3 with hq3 | ⟨hq3, hq4⟩
        · omega
        · apply hq4 v
          rw [show q - s.acc.length = pre.length by omega]
          simp
      show upd s'.cell _ _ (q % _) = none
      rw [upd_ne _ _ _ hne, e3]
      refine h.dead ht q hq1 hq2 ?_
      rcases hq3 with hq3 | ⟨hq3, hq4⟩
      · exact .inl hq3
      · refine .inr ⟨hq3, fun x hx => hq4 x ?_⟩
        rw [List.getElem?_append_left]
        · exact hx
        · rcases Nat.lt_or_ge (q - s.acc.length) pre.length with h | h
          · exact h
          · rw [List.getElem?_eq_none h] at hx; simp at hx
    · intro ht
      have := h.bal ht
      show s'.ctor + 1 = s'.dtor + (s'.acc.length - (s'.rel + gone)) + _
      rw [e1, e2, show s'.ctor = s.ctor by rw [h3], show s'.dtor = s.dtor by rw [h3]]
      simp
      omega
  · rw [h3]; simp

theorem countP_isSome_none {l₁ l₂ : List (Option α)} {x : α} :
    (l₁ ++ some x :: l₂).countP (·.isSome) = (l₁ ++ none :: l₂).countP (·.isSome) + 1 := by
  simp [List.countP_append, List.countP_cons]; omega

theorem SI.destroyP {l₁ l₂ : List (Option α)} {x : α} (h : SI cfg s (l₁ ++ some x :: l₂) gone handed)
    (hf : Free cfg s (l₁ ++ some x :: l₂).length) :
    ∃ s', s.destroyP cfg ((s.acc.length + l₁.length) % cfg.size.toNat) = some s' ∧
      SI cfg s' (l₁ ++ none :: l₂) gone handed ∧ s'.acc = s.acc ∧ s'.R = s.R ∧ s'.rlast = s.rlast ∧
      s'.vc = s.vc ∧ s'.W = s.W ∧ s'.wlast = s.wlast ∧ s'.out = s.out ∧ s.vp.c ≤ s'.vp.c ∧ s.vp.r ≤ s'.vp.r := by
  obtain ⟨s', h1, h2, h3⟩ := h.touchP (q := s.acc.length + l₁.length) (by omega) hf (by simp)
  have hfl := h.free_lt hf
  have hhl := h.hl
  simp only [List.length_append, List.length_cons] at hfl
  have hc := h.preLive l₁.length x (by simp)
  refine ⟨_, by rw [St.destroyP, h1, hc]; rfl, ?_, ?_⟩
  · have e1 : s'.acc = s.acc := by rw [h3]
    have e2 : s'.rel = s.rel := by rw [h3]; rfl
    have e3 : s'.cell = s.cell := by rw [h3]
    have hget : ∀ j, j ≠ l₁.length → (l₁ ++ some x :: l₂)[j]? = (l₁ ++ none :: l₂)[j]? := by
      intro j hj
      rcases Nat.lt_or_ge j l₁.length with hlt | hge
      · rw [List.getElem?_append_left hlt, List.getElem?_append_left hlt]
      · rw [List.getElem?_append_right hge, List.getElem?_append_right hge]
        obtain ⟨i, hi⟩ : ∃ i, j - l₁.length = i + 1 := ⟨j - l₁.length - 1, by omega⟩
        rw [hi]; simp
    have hnone : (l₁ ++ none :: l₂)[l₁.length]? = some none := by simp
    have hfl' := h.free_lt' hf
    refine { h2 with seenR := ?_, room := ?_, live := ?_, preLive := ?_, dead := ?_, bal := ?_ }
    · show s'.acc.length + _ < (s'.R s'.vp.r).cnt + _
      rw [h3]; simp at hfl' ⊢; omega
    · show s'.acc.length + _ < s'.rel + _
      rw [e1, e2]; simp; omega
    · intro q hq1 hq2
      have hq1 : s.rel + gone ≤ q := by rw [← e2]; exact hq1
      have hq2 : q < s.acc.length := by rw [← e1]; exact hq2
      have hne : q % cfg.size.toNat ≠ (s.acc.length + l₁.length) % cfg.size.toNat := fun he => by
        have := mod_inj (D := s.rel) (by omega) (by omega) (by omega) (by omega) he
        omega
      show upd s'.cell _ _ _ = s'.acc[q]?
      rw [upd_ne _ _ _ hne, e3, e1]
      exact h.live q hq1 hq2
    · intro j y hj
      show upd s'.cell _ _ ((s'.acc.length + j) % _) = some y
      rw [e1, e3]
      have hjl : j < (l₁ ++ none :: l₂).length := by
        rcases Nat.lt_or_ge j (l₁ ++ none :: l₂).length with h | h
        · exact h
        · rw [List.getElem?_eq_none h] at hj; simp at hj
      simp at hjl
      have hjn : j ≠ l₁.length := by rintro rfl; rw [hnone] at hj; simp at hj
      have hne : (s.acc.length + j) % cfg.size.toNat ≠ (s.acc.length + l₁.length) % cfg.size.toNat :=
        fun he => by
          have := mod_inj (D := s.rel) (by omega) (by omega) (by omega) (by omega) he
          omega
      rw [upd_ne _ _ _ hne]
      exact h.preLive j y (by rw [hget j hjn]; exact hj)
    · intro ht q hq1 hq2 hq3
      have hq1 : s.rel ≤ q := by rw [← e2]; exact hq1
      have hq2 : q < s.rel + cfg.size.toNat := by rw [← e2]; exact hq2
      have hq3 : q < s.rel + gone ∨
          s.acc.length ≤ q ∧ ∀ x, (l₁ ++ none :: l₂)[q - s.acc.length]? ≠ some (some x) := by
        rw [← e2, ← e1]; exact hq3
      show upd s'.cell _ _ (q % _) = none
      by_cases hne : q % cfg.size.toNat = (s.acc.length + l₁.length) % cfg.size.toNat
      · rw [hne]; exact upd_self _ _ _
      · rw [upd_ne _ _ _ hne, e3]
        refine h.dead ht q hq1 hq2 ?_
        rcases hq3 with hq3 | ⟨hq3, hq4⟩
        · exact .inl hq3
        · refine .inr ⟨hq3, fun y hy => hq4 y ?_⟩
          rw [← hget]
          · exact hy
          · intro hq
            apply hne
            rw [← hq]
            congr 1; omega
    · intro ht
      have := h.bal ht
      show s'.ctor = s'.dtor + 1 + (s'.acc.length - (s'.rel + gone)) + _
      rw [e1, e2, show s'.ctor = s.ctor by rw [h3], show s'.dtor = s.dtor by rw [h3]]
      rw [countP_isSome_none] at this
      omega
  · rw [h3]; simp

theorem countP_map_some (vs : List α) : (vs.map some).countP (·.isSome) = vs.length := by
  induction vs with
  | nil => rfl
  | cons a l ih => simp [List.countP_cons] at ih ⊢

/-- Publication. -/
theorem SI.storeW {vs : List α} (h : SI cfg s (vs.map some) gone handed) {x : SizeT}
    (hx : x.toNat = (s.acc.length + vs.length) % cfg.size.toNat) : SI cfg (s.storeW x vs) [] gone handed := by
  have hroom := h.room
  have hhl := h.hl
  simp only [List.length_map] at hroom
  have hrel : (s.storeW x vs).rel = s.rel := rfl
  have hlen : (s.storeW x vs).acc.length = s.acc.length + vs.length := by simp [St.storeW]
  have hW : ∀ k, k ≤ s.wlast → (s.storeW x vs).W k = s.W k := fun k hk =>
    upd_ne _ _ _ (by omega)
  have hW' : (s.storeW x vs).W (s.wlast + 1) =
      ⟨x, { s.vp with w := s.wlast + 1 }, s.acc.length + vs.length⟩ := upd_self _ _ _
  constructor
  · exact h.pos
  · exact h.small
  · intro k (hk : k ≤ s.wlast + 1)
    by_cases hk1 : k = s.wlast + 1
    · subst hk1; rw [hW']; exact hx
    · rw [hW k (by omega)]; exact h.wval k (by omega)
  · intro j k hjk (hk : k ≤ s.wlast + 1)
    by_cases hk1 : k = s.wlast + 1
    · subst hk1
      by_cases hj1 : j = s.wlast + 1
      · subst hj1; exact Nat.le_refl _
      · rw [hW', hW j (by omega)]
        have := h.cnt_le (k := j) (by omega)
        simp only; omega
    · rw [hW k (by omega), hW j (by omega)]; exact h.wmono j k hjk (by omega)
  · show ((s.storeW x vs).W (s.wlast + 1)).cnt = _
    rw [hW', hlen]
  · exact h.rval
  · exact h.rmono
  · rfl
  · exact h.vpr
  · have := h.vcw
    show s.vc.w ≤ s.wlast + 1
    omega
  · exact h.vcr
  · intro k (hk : k ≤ s.wlast + 1)
    by_cases hk1 : k = s.wlast + 1
    · subst hk1; rw [hW']
      have := h.vpr
      have := h.vpc
      exact ⟨Nat.le_refl _, h.vpr, Nat.le_refl _, h.vpc⟩
    · rw [hW k (by omega)]
      have := h.wview k (by omega)
      exact ⟨Nat.le_succ_of_le this.1, this.2⟩
  · intro k hk
    have := h.rview k hk
    exact ⟨Nat.le_succ_of_le this.1, this.2⟩
  · exact h.vpc
  · exact h.vcp
  · show s.rel + handed ≤ ((s.storeW x vs).W s.vc.w).cnt
    rw [hW _ h.vcw]; exact h.seenW
  · show (s.storeW x vs).acc.length + _ < (s.R s.vp.r).cnt + _
    rw [hlen]
    have := h.seenR
    simp at this ⊢; omega
  · exact h.lp
  · exact h.lc
  · intro k (hk : k ≤ s.wlast + 1) q hq1 hq2
    by_cases hk1 : k = s.wlast + 1
    · subst hk1; rw [hW']; exact h.lp _
    · rw [hW k (by omega)] at hq2 ⊢
      exact h.i1 k (by omega) q hq1 hq2
  · intro k hk q hq1 hq2
    rw [hlen] at hq1
    exact h.i2 k hk q (by omega) hq2
  · rw [hlen, hrel]; simp; exact hroom
  · show s.out = (s.acc ++ vs).take (s.rel + handed)
    rw [List.take_append_of_le_length hhl]; exact h.out
  · exact h.gh
  · rw [hlen, hrel]; omega
  · intro q (hq1 : s.rel + gone ≤ q) hq2
    rw [hlen] at hq2
    show s.cell _ = (s.acc ++ vs)[q]?
    by_cases hq : q < s.acc.length
    · rw [List.getElem?_append_left hq]; exact h.live q hq1 hq
    · rw [List.getElem?_append_right (by omega)]
      have hlt : q - s.acc.length < vs.length := by omega
      have := h.preLive (q - s.acc.length) (vs[q - s.acc.length]) (by simp [hlt])
      rw [show s.acc.length + (q - s.acc.length) = q by omega] at this
      rw [this]; simp [hlt]
  · intro j v hj; simp at hj
  · intro ht q (hq1 : s.rel ≤ q) (hq2 : q < s.rel + _) hq3
    rw [hlen] at hq3
    refine h.dead ht q hq1 hq2 ?_
    rcases hq3 with hq3 | ⟨hq3, _⟩
    · exact .inl hq3
    · refine .inr ⟨by omega, fun v => ?_⟩
      rw [List.getElem?_eq_none (by simp; omega)]; simp
  · intro ht
    have h1 := h.bal ht
    have h2 := h.gh
    rw [countP_map_some] at h1
    show s.ctor = s.dtor + ((s.storeW x vs).acc.length - (s.rel + gone)) + _
    rw [hlen]
    simp; omega

/-! ### Slot accesses of the consumer -/

theorem SI.touchC (h : SI cfg s pre gone handed) {q : Nat} (h1 : s.rel ≤ q) {m} (hf : Have s m)
    (h2 : q < s.rel + m) :
    ∃ s', s.touchC cfg (q % cfg.size.toNat) = some s' ∧ SI cfg s' pre gone handed ∧
      s' = { s with vc := { s.vc with c := s.vc.c + 1 }
                    lastC := upd s.lastC (q % cfg.size.toNat) (s.vc.c + 1) } := by
  have hfl := h.have_le hf
  have hroom := h.room
  obtain ⟨k, hk, hk1, hk2⟩ := hf
  have h3 := h.i1 k (Nat.le_trans hk h.vcw) q h1 (by omega)
  have h4 : q % cfg.size.toNat < cfg.size.toNat := Nat.mod_lt _ h.pos
  refine ⟨_, by rw [St.touchC, if_pos ⟨h4, by omega⟩], ?_, rfl⟩
  refine { h with wview := ?_, rview := ?_, vpc := ?_, lc := ?_, i2 := ?_, vcr := h.vcr, vcw := h.vcw }
  · intro k hk; have := h.wview k hk; simp only; omega
  · intro k hk; have := h.rview k hk; simp only; omega
  · have := h.vpc; simp only; omega
  · intro i
    have := h.lc i
    simp only [upd_apply]
    split <;> omega
  · intro k hk q' hq1 hq2
    have hq1 : s.acc.length ≤ q' := hq1
    have hq2 : q' < (s.R k).cnt + cfg.size.toNat := hq2
    have h5 := h.rel_le hk
    have h6 : q % cfg.size.toNat ≠ q' % cfg.size.toNat := fun he => by
      have := mod_inj (D := s.rel) (by omega) (by omega) (by omega) (by omega) he
      omega
    simp only [upd_ne _ _ _ h6.symm]
    exact h.i2 k hk q' hq1 hq2

/-- The consumer reads the element number `gone` from the front. -/
theorem SI.readC (h : SI cfg s pre gone handed) (hf : Have s (gone + 1)) :
    ∃ s' v, s.readC cfg ((s.rel + gone) % cfg.size.toNat) = some (s', v) ∧ SI cfg s' pre gone handed ∧
      s.acc[s.rel + gone]? = some v ∧
      s' = { s with vc := { s.vc with c := s.vc.c + 1 }
                    lastC := upd s.lastC ((s.rel + gone) % cfg.size.toNat) (s.vc.c + 1) } := by
  obtain ⟨s', h1, h2, h3⟩ := h.touchC (q := s.rel + gone) (by omega) hf (by omega)
  have hle := h.have_le hf
  have h4 := h.live (s.rel + gone) (by omega) (by omega)
  refine ⟨s', s.acc[s.rel + gone], ?_, h2, by simp [show s.rel + gone < s.acc.length by omega], h3⟩
  rw [St.readC, h4]
  simp [show s.rel + gone < s.acc.length by omega, h1]

/-- Handing out the next element. -/
theorem SI.hand (h : SI cfg s pre gone handed) {v : α} (hv : s.acc[s.rel + handed]? = some v)
    (hm : s.rel + handed < (s.W s.vc.w).cnt) : SI cfg { s with out := s.out ++ [v] } pre gone (handed + 1) := by
  have hlt : s.rel + handed < s.acc.length := Nat.lt_of_lt_of_le hm (h.cnt_le h.vcw)
  refine { h with out := ?_, gh := Nat.le_succ_of_le h.gh, hl := hlt, seenW := hm }
  show s.out ++ [v] = s.acc.take (s.rel + (handed + 1))
  rw [h.out, ← Nat.add_assoc, List.take_add_one, hv]; rfl

/-- One more element (already handed out) is gone: for types with trivial destructor without doing anything. -/
theorem SI.skip (h : SI cfg s pre gone handed) (ht : cfg.trivial = true) (hg : gone < handed) :
    SI cfg s pre (gone + 1) handed :=
  { h with
    gh := hg
    live := fun q hq1 hq2 => h.live q (by omega) hq2
    dead := fun h => by simp [ht] at h
    bal := fun h => by simp [ht] at h }

theorem SI.destroyC (h : SI cfg s pre gone handed) (hf : Have s (gone + 1)) (hg : gone < handed) :
    ∃ s', s.destroyC cfg ((s.rel + gone) % cfg.size.toNat) = some s' ∧ SI cfg s' pre (gone + 1) handed ∧
      s'.acc = s.acc ∧ s'.R = s.R ∧ s'.rlast = s.rlast ∧ s'.vp = s.vp ∧ s'.W = s.W ∧ s'.wlast = s.wlast ∧
      s'.out = s.out ∧ s'.vc = { s.vc with c := s.vc.c + 1 } := by
  obtain ⟨s', h1, h2, h3⟩ := h.touchC (q := s.rel + gone) (by omega) hf (by omega)
  have hle := h.have_le hf
  have hroom := h.room
  have h4 := h.live (s.rel + gone) (by omega) (by omega)
  have hlt : s.rel + gone < s.acc.length := by omega
  refine ⟨_, by rw [St.destroyC, h1, h4]; simp only [hlt, List.getElem?_eq_getElem]; rfl, ?_, ?_⟩
  · have e1 : s'.acc = s.acc := by rw [h3]
    have e2 : s'.rel = s.rel := by rw [h3]; rfl
    have e3 : s'.cell = s.cell := by rw [h3]
    refine { h2 with gh := hg, live := ?_, preLive := ?_, dead := ?_, bal := ?_ }
    · intro q hq1 hq2
      have hq1 : s.rel + (gone + 1) ≤ q := by rw [← e2]; exact hq1
      have hq2 : q < s.acc.length := by rw [← e1]; exact hq2
      have hne : q % cfg.size.toNat ≠ (s.rel + gone) % cfg.size.toNat := fun he => by
        have := mod_inj (D := s.rel) (by omega) (by omega) (by omega) (by omega) he
        omega
      show upd s'.cell _ _ _ = s'.acc[q]?
      rw [upd_ne _ _ _ hne, e3, e1]
      exact h.live q (by omega) hq2
    · intro j x hj
      show upd s'.cell _ _ ((s'.acc.length + j) % _) = some x
      rw [e1, e3]
      have hjl : j < pre.length := by
        rcases Nat.lt_or_ge j pre.length with h | h
        · exact h
        · rw [List.getElem?_eq_none h] at hj; simp at hj
      have hne : (s.acc.length + j) % cfg.size.toNat ≠ (s.rel + gone) % cfg.size.toNat := fun he => by
        have := mod_inj (D := s.rel) (by omega) (by omega) (by omega) (by omega) he
        omega
      rw [upd_ne _ _ _ hne]
      exact h.preLive j x hj
    · intro ht q hq1 hq2 hq3
      have hq1 : s.rel ≤ q := by rw [← e2]; exact hq1
      have hq2 : q < s.rel + cfg.size.toNat := by rw [← e2]; exact hq2
      have hq3 : q < s.rel + (gone + 1) ∨
          s.acc.length ≤ q ∧ ∀ x, pre[q - s.acc.length]? ≠ some (some x) := by
        rw [← e2, ← e1]; exact hq3
      show upd s'.cell _ _ (q % _) = none
      by_cases hne : q % cfg.size.toNat = (s.rel + gone) % cfg.size.toNat
      · rw [hne]; exact upd_self _ _ _
      · rw [upd_ne _ _ _ hne, e3]
        refine h.dead ht q hq1 hq2 ?_
        rcases hq3 with hq3 | hq3
        · refine .inl ?_
          have : q ≠ s.rel + gone := fun he => hne (by rw [he])
          omega
        · exact .inr hq3
    · intro ht
      have := h.bal ht
      show s'.ctor = s'.dtor + 1 + (s'.acc.length - (s'.rel + (gone + 1))) + _
      rw [e1, e2, show s'.ctor = s.ctor by rw [h3], show s'.dtor = s.dtor by rw [h3]]
      omega
  · rw [h3]; simp

/-- Release. -/
theorem SI.storeR {k : Nat} (h : SI cfg s pre k k) {x : SizeT}
    (hx : x.toNat = (s.rel + k) % cfg.size.toNat) : SI cfg (s.storeR x k) pre 0 0 := by
  have hroom := h.room
  have hhl := h.hl
  have hR : ∀ j, j ≤ s.rlast → (s.storeR x k).R j = s.R j := fun j hj => upd_ne _ _ _ (by omega)
  have hR' : (s.storeR x k).R (s.rlast + 1) = ⟨x, { s.vc with r := s.rlast + 1 }, s.rel + k⟩ := upd_self _ _ _
  have hrel : (s.storeR x k).rel = s.rel + k := by
    show ((s.storeR x k).R (s.rlast + 1)).cnt = _
    rw [hR']
  constructor
  · exact h.pos
  · exact h.small
  · exact h.wval
  · exact h.wmono
  · exact h.wcnt
  · intro j (hj : j ≤ s.rlast + 1)
    by_cases hj1 : j = s.rlast + 1
    · subst hj1; rw [hR']; exact hx
    · rw [hR j (by omega)]; exact h.rval j (by omega)
  · intro i j hij (hj : j ≤ s.rlast + 1)
    by_cases hj1 : j = s.rlast + 1
    · subst hj1
      by_cases hi1 : i = s.rlast + 1
      · subst hi1; exact Nat.le_refl _
      · rw [hR', hR i (by omega)]
        have := h.rel_le (k := i) (by omega)
        simp only; omega
    · rw [hR j (by omega), hR i (by omega)]; exact h.rmono i j hij (by omega)
  · exact h.vpw
  · have := h.vpr
    show s.vp.r ≤ s.rlast + 1
    omega
  · exact h.vcw
  · rfl
  · intro j hj
    have := h.wview j hj
    exact ⟨this.1, Nat.le_succ_of_le this.2.1, this.2.2⟩
  · intro j (hj : j ≤ s.rlast + 1)
    by_cases hj1 : j = s.rlast + 1
    · subst hj1; rw [hR']; exact ⟨h.vcw, Nat.le_refl _, h.vcp, Nat.le_refl _⟩
    · rw [hR j (by omega)]
      have := h.rview j (by omega)
      exact ⟨this.1, Nat.le_succ_of_le this.2.1, this.2.2⟩
  · exact h.vpc
  · exact h.vcp
  · rw [hrel]; exact h.seenW
  · show s.acc.length + _ < ((s.storeR x k).R s.vp.r).cnt + _
    rw [hR _ h.vpr]; exact h.seenR
  · exact h.lp
  · exact h.lc
  · intro j hj q hq1 hq2
    rw [hrel] at hq1
    exact h.i1 j hj q (by omega) hq2
  · intro j (hj : j ≤ s.rlast + 1) q hq1 hq2
    by_cases hj1 : j = s.rlast + 1
    · subst hj1; rw [hR']; exact h.lc _
    · rw [hR j (by omega)] at hq2 ⊢
      exact h.i2 j (by omega) q hq1 hq2
  · rw [hrel]; show s.acc.length + _ < _; omega
  · show s.out = s.acc.take _
    rw [hrel]; exact h.out
  · exact Nat.le_refl _
  · rw [hrel]; exact hhl
  · intro q hq1 hq2
    rw [hrel] at hq1
    exact h.live q hq1 hq2
  · exact h.preLive
  · intro ht q hq1 hq2 hq3
    rw [hrel] at hq1 hq2 hq3
    rcases hq3 with hq3 | hq3
    · omega
    · by_cases hq : q < s.rel + cfg.size.toNat
      · exact h.dead ht q (by omega) hq (.inr hq3)
      · -- one of the slots just released, on its next round
        have h1 : (q - cfg.size.toNat) % cfg.size.toNat = q % cfg.size.toNat := by
          conv => rhs; rw [show q = (q - cfg.size.toNat) + cfg.size.toNat by omega, Nat.add_mod_right]
        show s.cell _ = none
        rw [← h1]
        exact h.dead ht (q - cfg.size.toNat) (by omega) (by omega) (.inl (by omega))
  · intro ht
    have := h.bal ht
    rw [hrel]
    exact this

end

end Verif.Spsc
