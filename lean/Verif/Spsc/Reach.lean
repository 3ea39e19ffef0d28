import Verif.Spsc.Step

/-!
# `spsc_queue`: the invariant holds in every reachable configuration (proof)
-/

namespace Verif.Spsc
open Lin

variable {α : Type} {cfg : Cfg} {s s' : St α} {pre : List (Option α)} {gone handed : Nat}

/-- The consumer knows by acquire loads (or other synchronisation) that the queue is not empty: a store to
`write_index_` that leaves an element to read happens-before its next step. This is what a positive result of
`read_available()` establishes (`spsc_read_available_reliable`). -/
def KnowsNonempty (s : St α) : Prop :=
  ∃ k, k ≤ s.vc.w ∧ (s.R s.rlast).cnt < (s.W k).cnt ∧ (s.W k).view.p ≤ s.vc.p

/-- Which steps are covered by the safety theorems. Excluded are
* exceptions in the second section of a bulk push and after the first element of a bulk pop (C12 treats them),
* a call of `front()` without `BOOST_ASSERT` that violates its precondition (spsc_queue.hpp:1007). -/
def okSafe (s : St α) (p : PC α) : Choice α → Prop
  | .throw => match p with
    | .rngCopy _ _ _ _ second _ _ => second = false
    | .bulkRead _ _ _ _ outs _ => outs = []
    | _ => True
  | .call (.front false) => KnowsNonempty s
  | _ => True

/-- Invariant of configurations. -/
def Inv (cfg : Cfg) (C : Conf α) : Prop :=
  ∃ pre gone handed, SI cfg C.s pre gone handed ∧ PLocal cfg C.s pre (C.pc 0) ∧
    CLocal cfg C.s gone handed (C.pc 1) ∧ ∀ t, C.pc (t + 2) = .idle

/-- The configurations in which the life of a queue starts: a fresh queue, or one of a type with trivial destructor
after `reset()` while no operation is in progress. (For other types `reset()` is `consume_all`, i.e. a call.) -/
inductive Start (cfg : Cfg) : Conf α → Prop where
  | fresh : Start cfg Conf.initial
  | reset {C₀ h C} : Start cfg C₀ → MSteps (mach α cfg) okSafe C₀ h C → (∀ t, C.pc t = .idle) →
      cfg.trivial = true → Start cfg ⟨C.s.reset, C.pc⟩

/-- Executions covered by the safety theorems: release/acquire memory with stale loads, any interleaving. `h` is the
history since the construction of the queue or the last `reset()` of the kind described at `Start`. -/
def Exec (cfg : Cfg) (h : History (Op α) (Ret α)) (C : Conf α) : Prop :=
  ∃ C₀, Start cfg C₀ ∧ MSteps (mach α cfg) okSafe C₀ h C

theorem SI.forget {d : Nat} (h : SI cfg s (List.replicate d none) gone handed) : SI cfg s [] gone handed := by
  have h1 := h.seenR
  have h2 := h.room
  refine { h with seenR := ?_, room := ?_, preLive := by simp, dead := ?_, bal := ?_ }
  · simp at h1 ⊢; omega
  · simp at h2 ⊢; omega
  · intro ht q hq1 hq2 hq3
    refine h.dead ht q hq1 hq2 ?_
    rcases hq3 with h | h
    · exact .inl h
    · refine .inr ⟨h.1, fun v hv => ?_⟩
      rw [List.getElem?_replicate] at hv
      split at hv <;> simp at hv
  · intro ht
    have := h.bal ht
    rw [this]
    simp [List.countP_replicate]

theorem initial_SI (hpos : 0 < cfg.size.toNat) (hsmall : cfg.size.toNat ≤ 2 ^ 63) :
    SI cfg (St.initial : St α) [] 0 0 := by
  constructor <;> simp [St.initial, St.rel, View.zero, hpos, hsmall]

theorem Inv.initial (hpos : 0 < cfg.size.toNat) (hsmall : cfg.size.toNat ≤ 2 ^ 63) :
    Inv cfg (Conf.initial : Conf α) :=
  ⟨[], 0, 0, initial_SI hpos hsmall, rfl, ⟨rfl, rfl⟩, fun _ => rfl⟩

section step
variable {C : Conf α}

theorem Inv.mkP {p' : PC α} (h1 : SI cfg s' pre gone handed) (h2 : PLocal cfg s' pre p')
    (h3 : CLocal cfg C.s gone handed (C.pc 1)) (h4 : ∀ t, C.pc (t + 2) = .idle) (hacc : C.s.acc <+: s'.acc)
    (hrel : s'.rel = C.s.rel) (hv : s'.vc = C.s.vc) (hW : ∀ k, k ≤ C.s.vc.w → s'.W k = C.s.W k) :
    Inv cfg ⟨s', upd C.pc 0 p'⟩ := by
  refine ⟨pre, gone, handed, h1, by simpa using h2, ?_, fun t => ?_⟩
  · simp only [upd_ne _ _ _ (show (1 : Nat) ≠ 0 by omega)]
    exact h3.stable hacc hrel (by rw [hv]; exact Nat.le_refl _) (by rw [hv]; exact Nat.le_refl _) hW
  · simp only [upd_ne _ _ _ (show t + 2 ≠ 0 by omega)]; exact h4 t

theorem Inv.mkC {p' : PC α} (h1 : SI cfg s' pre gone handed) (h2 : CLocal cfg s' gone handed p')
    (h3 : PLocal cfg C.s pre (C.pc 0)) (h4 : ∀ t, C.pc (t + 2) = .idle) (hacc : s'.acc = C.s.acc)
    (hv : s'.vp = C.s.vp) (hR : ∀ k, k ≤ C.s.vp.r → s'.R k = C.s.R k) :
    Inv cfg ⟨s', upd C.pc 1 p'⟩ := by
  refine ⟨pre, gone, handed, h1, ?_, by simpa using h2, fun t => ?_⟩
  · simp only [upd_ne _ _ _ (show (0 : Nat) ≠ 1 by omega)]
    exact h3.stable hacc (by rw [hv]; exact Nat.le_refl _) (by rw [hv]; exact Nat.le_refl _) hR
  · simp only [upd_ne _ _ _ (show t + 2 ≠ 1 by omega)]; exact h4 t

theorem replicate_snoc_none (d : Nat) (l : List (Option α)) :
    List.replicate d none ++ none :: l = List.replicate (d + 1) none ++ l := by
  rw [List.replicate_succ', List.append_assoc]; rfl

theorem Inv.stepP (hi : Inv cfg C) {ch : Choice α} {s' p' e}
    (hs : tstep cfg 0 C.s (C.pc 0) ch = some (s', p', e)) (hok : okSafe C.s (C.pc 0) ch) :
    Inv cfg ⟨s', upd C.pc 0 p'⟩ := by
  obtain ⟨pre, gone, handed, h, hP, hC, hI⟩ := hi
  generalize hp : C.pc 0 = p at hs hP hok
  have quiet : ∀ {p'}, PLocal cfg C.s pre p' → Inv cfg ⟨C.s, upd C.pc 0 p'⟩ := fun hl =>
    Inv.mkP h hl hC hI (List.prefix_refl _) rfl rfl fun _ _ => rfl
  have view : ∀ {v p'}, SI cfg { C.s with vp := v } pre gone handed → PLocal cfg { C.s with vp := v } pre p' →
      Inv cfg ⟨{ C.s with vp := v }, upd C.pc 0 p'⟩ := fun h1 hl =>
    Inv.mkP h1 hl hC hI (List.prefix_refl _) rfl rfl fun _ _ => rfl
  cases ch with
  | call o =>
    cases p <;> simp [tstep] at hs
    obtain ⟨p1, h1, rfl, rfl, rfl⟩ := hs
    have : pre = [] := hP
    subst this
    cases o <;> simp [start] at h1 <;> subst h1 <;> exact quiet rfl
  | sync =>
    simp only [tstep, tau, Option.some.injEq, Prod.mk.injEq] at hs
    obtain ⟨rfl, rfl, rfl⟩ := hs
    obtain ⟨v, h1, h2, h3⟩ := h.syncP
    have hr : C.s.vp.r ≤ (C.s.vp.join C.s.vc).r := Nat.le_max_left _ _
    have hc : C.s.vp.c ≤ (C.s.vp.join C.s.vc).c := Nat.le_max_left _ _
    exact view (by rw [h1]; exact h2) (hP.stable rfl hr hc fun _ _ => rfl)
  | swap j =>
    cases p <;> simp only [tstep, reduceCtorEq] at hs
    simp only [Option.bind_eq_some_iff, Prod.exists] at hs
    obtain ⟨s1, r, h1, hs⟩ := hs
    obtain ⟨vv, rfl, h2, _⟩ := h.loadRP h1
    simp only [tau, Option.some.injEq, Prod.mk.injEq] at hs
    obtain ⟨rfl, rfl, rfl⟩ := hs
    exact view h2 hP
  | throw =>
    cases p <;> simp only [tstep, reduceCtorEq] at hs
    case push3 v w next =>
      simp only [tau, Option.some.injEq, Prod.mk.injEq] at hs
      obtain ⟨rfl, rfl, rfl⟩ := hs
      exact quiet hP.1
    case rngCopy start dst xs rest second total newW =>
      simp only [tau, Option.some.injEq, Prod.mk.injEq] at hs
      obtain ⟨rfl, rfl, rfl⟩ := hs
      have hok : second = false := hok
      obtain ⟨h1, done, h2, h3⟩ := hP
      obtain ⟨h4, h5, h6⟩ := h3.hdst h1
      obtain ⟨h6, h7⟩ := h6 hok
      split
      · rename_i he
        have : done = [] := List.length_eq_zero_iff.1 (by omega)
        subst this
        exact quiet h2
      · rename_i he
        have hlen : total.length = done.length + xs.length + rest.length := by rw [h3.tot]; simp; omega
        refine quiet ⟨0, done, ?_, by simpa using h2, by simpa using h6, by omega, by omega, ?_⟩
        · rintro rfl; simp at h7; omega
        · rw [h2]; simp; exact h3.free.mono (by omega)
    case one3 => exact hP.elim
    case bulkRead => exact hP.elim
  | go j =>
    cases p <;> simp only [tstep] at hs
    case idle => simp at hs
    case push1 v =>
      have : pre = [] := hP
      subst this
      simp only [Option.bind_eq_some_iff, Prod.exists] at hs
      obtain ⟨s1, w, h1, hs⟩ := hs
      obtain ⟨rfl, hw⟩ := h.loadWP h1
      obtain ⟨nx, hn1, _, hn2, _⟩ := nextIndex_exact (arg := w) (max := cfg.size)
        (by rw [hw]; exact Nat.mod_lt _ h.pos)
      rw [hn1] at hs
      simp only [tau, Option.some.injEq, Prod.mk.injEq] at hs
      obtain ⟨rfl, rfl, rfl⟩ := hs
      refine quiet ⟨rfl, hw, ?_⟩
      rw [hn2, hw]; simp [Nat.add_mod]
    case push2 v w next =>
      obtain ⟨rfl, hw, hn⟩ := hP
      simp only [Option.bind_eq_some_iff, Prod.exists] at hs
      obtain ⟨s1, r, h1, hs⟩ := hs
      obtain ⟨vv, rfl, h2, h3, h4, h5, h6, h7, h8, h9, h10⟩ := h.loadRP h1
      simp only [tau, Option.some.injEq, Prod.mk.injEq] at hs
      obtain ⟨rfl, rfl, rfl⟩ := hs
      split
      · exact view h2 rfl
      · rename_i hne
        refine view h2 ⟨rfl, hw, hn, j, h5, ?_, h9 rfl⟩
        have hpos := h.pos
        have hhl := h.hl
        show C.s.acc.length + 1 < (C.s.R j).cnt + cfg.size.toNat
        rcases Nat.lt_or_ge (C.s.acc.length + 1) ((C.s.R j).cnt + cfg.size.toNat) with hlt | hge
        · exact hlt
        · exfalso
          apply hne
          apply BitVec.eq_of_toNat_eq
          rw [hn, h6, show C.s.acc.length + 1 = (C.s.R j).cnt + cfg.size.toNat by omega, Nat.add_mod_right]
    case push3 v w next =>
      obtain ⟨rfl, hw, hn, hf⟩ := hP
      obtain ⟨s1, h1, h2, h3, h4, h5, h6, h7, h8, h9, h10⟩ := h.construct v hf
      simp only [List.length_nil, Nat.add_zero] at h1
      rw [hw, h1] at hs
      simp only [orErr, tau, Option.some.injEq, Prod.mk.injEq] at hs
      obtain ⟨rfl, rfl, rfl⟩ := hs
      exact Inv.mkP h2 ⟨rfl, by rw [h3]; exact hn⟩ hC hI (h3 ▸ List.prefix_refl _) (by simp only [St.rel, h4, h5]) h6
        (by simp [h7])
    case push4 v next =>
      obtain ⟨rfl, hn⟩ := hP
      simp only [tau, Option.some.injEq, Prod.mk.injEq] at hs
      obtain ⟨rfl, rfl, rfl⟩ := hs
      have h1 := SI.storeW (vs := [v]) h (x := next) (by simpa using hn)
      exact Inv.mkP h1 rfl hC hI (List.prefix_append _ _) rfl rfl fun k hk => by
        have := h.vcw
        exact upd_ne _ _ _ (by omega)
    case rng1 vs =>
      simp only [Option.bind_eq_some_iff, Prod.exists] at hs
      obtain ⟨s1, w, h1, hs⟩ := hs
      obtain ⟨rfl, hw⟩ := h.loadWP h1
      simp only [tau, Option.some.injEq, Prod.mk.injEq] at hs
      obtain ⟨rfl, rfl, rfl⟩ := hs
      exact quiet ⟨hP, hw⟩
    case rng2 vs w =>
      obtain ⟨rfl, hw⟩ := hP
      simp only [Option.bind_eq_some_iff, Prod.exists] at hs
      obtain ⟨s1, r, h1, hs⟩ := hs
      obtain ⟨vv, rfl, h2, h3, h4, h5, h6, h7, h8, h9, h10⟩ := h.loadRP h1
      simp only [tau, Option.some.injEq, Prod.mk.injEq] at hs
      obtain ⟨rfl, rfl, rfl⟩ := hs
      exact view h2 (rngPlan_local h2 hw h5 h6 h7 h8 (h9 rfl)).1
    case rngCopy start dst xs rest second total newW =>
      obtain ⟨h1, done, rfl, h3⟩ := hP
      cases xs with
      | nil => exact absurd rfl h1
      | cons x xs =>
        obtain ⟨hd, _⟩ := h3.hdst h1
        have hf : Free cfg C.s ((done.map some).length + 1) := h3.free.mono (by rw [h3.tot]; simp)
        obtain ⟨s1, k1, k2, k3, k4, k5, k6, k7, k8, k9, k10, k11⟩ := h.construct x hf
        simp only [List.length_map] at k1
        simp only [hd, k1, orErr, tau, Option.some.injEq, Prod.mk.injEq] at hs
        obtain ⟨rfl, rfl, rfl⟩ := hs
        refine Inv.mkP (pre := (done ++ [x]).map some) (by simpa using k2) ?_ hC hI (k3 ▸ List.prefix_refl _)
          (by simp only [St.rel, k4, k5]) k6 (by simp [k7])
        have h4 := RP.step h.pos h3
        rw [hd] at h4
        have := h4.next
        exact this.stable k3 k11 k10 (by simp [k4])
    case rngUnwind i stop =>
      obtain ⟨d, xs, h1, rfl, hi, hst, hle, hf⟩ := hP
      cases xs with
      | nil => exact absurd rfl h1
      | cons x xs =>
        simp only [List.map_cons] at h hf
        obtain ⟨s1, k1, k2, k3, k4, k5, k6, k7, k8, k9, k10, k11⟩ := h.destroyP hf
        have hidx : (C.s.acc.length + (List.replicate d (none : Option α)).length) % cfg.size.toNat = i := by
          have := mod_add (c := C.s.acc.length) (d := d) (n := cfg.size.toNat) (by simp at hst; omega) h.pos
          simp only [List.length_replicate]
          rw [this, if_pos (by simp at hst; omega)]; exact hi.symm
        rw [hidx] at k1
        simp only [k1, orErr, tau, Option.some.injEq, Prod.mk.injEq] at hs
        obtain ⟨rfl, rfl, rfl⟩ := hs
        rw [replicate_snoc_none] at k2
        split
        · rename_i he
          have : xs = [] := List.length_eq_zero_iff.1 (by simp at hst; omega)
          subst this
          simp at k2
          exact Inv.mkP k2.forget rfl hC hI (k3 ▸ List.prefix_refl _)
            (by simp only [St.rel, k4, k5]) k6 (by simp [k7])
        · rename_i he
          refine Inv.mkP k2 ⟨d + 1, xs, ?_, rfl, ?_, ?_, hle, ?_⟩ hC hI (k3 ▸ List.prefix_refl _)
            (by simp only [St.rel, k4, k5]) k6 (by simp [k7])
          · rintro rfl; simp at hst; omega
          · rw [k3]; omega
          · simp at hst; omega
          · refine Free.stable (s := C.s) ?_ k3 k11 k10 (by simp [k4])
            simpa [Nat.add_assoc, Nat.add_comm, Nat.add_left_comm] using hf
    case rngStore total newW =>
      obtain ⟨rfl, hn⟩ := hP
      simp only [tau, Option.some.injEq, Prod.mk.injEq] at hs
      obtain ⟨rfl, rfl, rfl⟩ := hs
      have h1 := SI.storeW h (x := newW) hn
      exact Inv.mkP h1 rfl hC hI (List.prefix_append _ _) rfl rfl fun k hk => by
        have := h.vcw
        exact upd_ne _ _ _ (by omega)
    case wav1 =>
      simp only [Option.bind_eq_some_iff, Prod.exists] at hs
      obtain ⟨s1, w, h1, hs⟩ := hs
      obtain ⟨rfl, hw⟩ := h.loadWP h1
      simp only [tau, Option.some.injEq, Prod.mk.injEq] at hs
      obtain ⟨rfl, rfl, rfl⟩ := hs
      exact quiet ⟨hP, hw⟩
    case wav2 w =>
      simp only [Option.bind_eq_some_iff, Prod.exists] at hs
      obtain ⟨s1, r, h1, hs⟩ := hs
      obtain ⟨vv, rfl, h2, _⟩ := h.loadRP h1
      simp only [tau, Option.some.injEq, Prod.mk.injEq] at hs
      obtain ⟨rfl, rfl, rfl⟩ := hs
      exact view h2 hP.1
    case emp1 =>
      simp only [Option.bind_eq_some_iff, Prod.exists] at hs
      obtain ⟨s1, w, h1, hs⟩ := hs
      obtain ⟨rfl, hw⟩ := h.loadWP h1
      simp only [tau, Option.some.injEq, Prod.mk.injEq] at hs
      obtain ⟨rfl, rfl, rfl⟩ := hs
      exact quiet ⟨hP, hw⟩
    case emp2 w =>
      simp only [Option.bind_eq_some_iff, Prod.exists] at hs
      obtain ⟨s1, r, h1, hs⟩ := hs
      obtain ⟨vv, rfl, h2, _⟩ := h.loadRP h1
      simp only [tau, Option.some.injEq, Prod.mk.injEq] at hs
      obtain ⟨rfl, rfl, rfl⟩ := hs
      exact view h2 hP.1
    case emp3 r =>
      simp only [Option.bind_eq_some_iff, Prod.exists] at hs
      obtain ⟨s1, w, h1, hs⟩ := hs
      obtain ⟨rfl, hw⟩ := h.loadWP h1
      simp only [tau, Option.some.injEq, Prod.mk.injEq] at hs
      obtain ⟨rfl, rfl, rfl⟩ := hs
      exact quiet hP
    case ret r =>
      simp only [Option.some.injEq, Prod.mk.injEq] at hs
      obtain ⟨rfl, rfl, rfl⟩ := hs
      exact quiet hP
    all_goals exact hP.elim

theorem single_prefix {l : List α} {n : Nat} {v : α} (h : l[n]? = some v) : [v] <+: l.drop n := by
  obtain ⟨hn, rfl⟩ := List.getElem?_eq_some_iff.1 h
  rw [List.drop_eq_getElem_cons hn]
  exact ⟨_, rfl⟩

theorem prefix_snoc {l o : List α} {n : Nat} {v : α} (ho : o <+: l.drop n) (h : l[n + o.length]? = some v) :
    o ++ [v] <+: l.drop n := by
  obtain ⟨t, ht⟩ := ho
  have : (l.drop n)[o.length]? = some v := by rw [List.getElem?_drop]; exact h
  rw [← ht] at this ⊢
  rw [List.getElem?_append_right (Nat.le_refl _), Nat.sub_self] at this
  cases t with
  | nil => simp at this
  | cons a t => simp at this; subst this; exact ⟨t, by simp⟩

theorem readAvail_self (w m : SizeT) : readAvail w w m = 0 := by
  simp [readAvail]

theorem Inv.stepC (hi : Inv cfg C) {ch : Choice α} {s' p' e}
    (hs : tstep cfg 1 C.s (C.pc 1) ch = some (s', p', e)) (hok : okSafe C.s (C.pc 1) ch) :
    Inv cfg ⟨s', upd C.pc 1 p'⟩ := by
  obtain ⟨pre, gone, handed, h, hP, hC, hI⟩ := hi
  generalize hp : C.pc 1 = p at hs hC hok
  have quiet : ∀ {p'}, CLocal cfg C.s gone handed p' → Inv cfg ⟨C.s, upd C.pc 1 p'⟩ := fun hl =>
    Inv.mkC h hl hP hI rfl rfl fun _ _ => rfl
  have view : ∀ {v p'}, SI cfg { C.s with vc := v } pre gone handed → CLocal cfg { C.s with vc := v } gone handed p' →
      Inv cfg ⟨{ C.s with vc := v }, upd C.pc 1 p'⟩ := fun h1 hl =>
    Inv.mkC h1 hl hP hI rfl rfl fun _ _ => rfl
  have touched : ∀ {v l p'}, SI cfg { C.s with vc := v, lastC := l } pre gone handed →
      CLocal cfg { C.s with vc := v, lastC := l } gone handed p' →
      Inv cfg ⟨{ C.s with vc := v, lastC := l }, upd C.pc 1 p'⟩ := fun h1 hl =>
    Inv.mkC h1 hl hP hI rfl rfl fun _ _ => rfl
  cases ch with
  | call o =>
    cases p <;> simp [tstep] at hs
    obtain ⟨p1, h1, rfl, rfl, rfl⟩ := hs
    cases o <;> simp [start] at h1 <;> try subst h1
    case front b =>
      cases b
      · exact quiet ⟨hC.1, hC.2, hok⟩
      · exact quiet hC
    all_goals exact quiet hC
  | sync =>
    simp only [tstep, tau, Option.some.injEq, Prod.mk.injEq] at hs
    obtain ⟨rfl, rfl, rfl⟩ := hs
    obtain ⟨v, h1, h2, h3⟩ := h.syncC
    have hr : C.s.vc.w ≤ (C.s.vc.join C.s.vp).w := Nat.le_max_left _ _
    have hc : C.s.vc.p ≤ (C.s.vc.join C.s.vp).p := Nat.le_max_left _ _
    exact view (by rw [h1]; exact h2) (hC.stable (List.prefix_refl _) rfl hr hc fun _ _ => rfl)
  | swap j =>
    cases p <;> simp only [tstep, reduceCtorEq] at hs
    simp only [Option.bind_eq_some_iff, Prod.exists] at hs
    obtain ⟨s1, r, h1, hs⟩ := hs
    obtain ⟨rfl, hr⟩ := h.loadRC h1
    simp only [tau, Option.some.injEq, Prod.mk.injEq] at hs
    obtain ⟨rfl, rfl, rfl⟩ := hs
    exact quiet ⟨hC.1, hC.2, hr⟩
  | throw =>
    cases p <;> simp only [tstep, reduceCtorEq] at hs
    case push3 => exact hC.elim
    case rngCopy => exact hC.elim
    case one3 r =>
      obtain ⟨rfl, rfl, hr, hh⟩ := hC
      obtain ⟨s1, v, h1, h2, h3, h4⟩ := h.readC hh
      rw [Nat.add_zero, ← hr] at h1
      simp only [h1, tau, Option.some.injEq, Prod.mk.injEq] at hs
      obtain ⟨rfl, rfl, rfl⟩ := hs
      subst h4
      exact touched h2 ⟨rfl, rfl⟩
    case bulkRead copy i rem rest outs newR =>
      have hok : outs = [] := hok
      subst hok
      obtain ⟨rfl, rfl, hrem, hb, ho⟩ := hC
      obtain ⟨s1, v, h1, h2, h3, h4⟩ := h.readC (hb.hav.mono (by omega))
      rw [← (hb.pos hrem).1] at h1
      simp only [h1, tau, Option.some.injEq, Prod.mk.injEq] at hs
      obtain ⟨rfl, rfl, rfl⟩ := hs
      subst h4
      exact touched h2 ⟨rfl, rfl⟩
  | go j =>
    have acq : ∀ {w s1}, C.s.loadWC true j = some (s1, w) → ∃ v, s1 = { C.s with vc := v } ∧
        SI cfg { C.s with vc := v } pre gone handed ∧ SeenW cfg { C.s with vc := v } true w := by
      intro w s1 h1
      obtain ⟨vv, rfl, h2, h3, h4, h5, h6, h7, h8, h9, h10⟩ := h.loadWC h1
      exact ⟨vv, rfl, h2, j, h5, h6, h7, h9⟩
    have pos1 : ∀ {w r}, SeenW cfg C.s true w → r.toNat = C.s.rel % cfg.size.toNat → w ≠ r → Have C.s 1 := by
      rintro w r ⟨k, k1, k2, k3, k4⟩ hr hne
      refine ⟨k, k1, ?_, k4 rfl⟩
      rcases Nat.eq_or_lt_of_le k3 with he | hlt
      · exact absurd (BitVec.eq_of_toNat_eq (by rw [k2, hr, he])) hne
      · exact hlt
    cases p <;> simp only [tstep] at hs
    case idle => simp at hs
    case emp1 =>
      simp only [Option.bind_eq_some_iff, Prod.exists] at hs
      obtain ⟨s1, w, h1, hs⟩ := hs
      obtain ⟨vv, rfl, h2, h3, h4, h5, h6, h7, h8, h9, h10⟩ := h.loadWC h1
      simp only [tau, Option.some.injEq, Prod.mk.injEq] at hs
      obtain ⟨rfl, rfl, rfl⟩ := hs
      exact view h2 ⟨hC.1, hC.2, j, h5, h6, h7, by simp⟩
    case emp2 w =>
      simp only [Option.bind_eq_some_iff, Prod.exists] at hs
      obtain ⟨s1, r, h1, hs⟩ := hs
      obtain ⟨rfl, hr⟩ := h.loadRC h1
      simp only [tau, Option.some.injEq, Prod.mk.injEq] at hs
      obtain ⟨rfl, rfl, rfl⟩ := hs
      exact quiet ⟨hC.1, hC.2.1⟩
    case emp3 r =>
      simp only [Option.bind_eq_some_iff, Prod.exists] at hs
      obtain ⟨s1, w, h1, hs⟩ := hs
      obtain ⟨vv, rfl, h2, h3, h4, h5, h6, h7, h8, h9, h10⟩ := h.loadWC h1
      simp only [tau, Option.some.injEq, Prod.mk.injEq] at hs
      obtain ⟨rfl, rfl, rfl⟩ := hs
      exact view h2 ⟨hC.1, hC.2.1⟩
    case one1 =>
      simp only [Option.bind_eq_some_iff, Prod.exists] at hs
      obtain ⟨s1, w, h1, hs⟩ := hs
      obtain ⟨v, rfl, h2, h3⟩ := acq h1
      simp only [tau, Option.some.injEq, Prod.mk.injEq] at hs
      obtain ⟨rfl, rfl, rfl⟩ := hs
      exact view h2 ⟨hC.1, hC.2, h3⟩
    case one2 w =>
      simp only [Option.bind_eq_some_iff, Prod.exists] at hs
      obtain ⟨s1, r, h1, hs⟩ := hs
      obtain ⟨rfl, hr⟩ := h.loadRC h1
      simp only [tau, Option.some.injEq, Prod.mk.injEq] at hs
      obtain ⟨rfl, rfl, rfl⟩ := hs
      split
      · exact quiet ⟨hC.1, hC.2.1⟩
      · rename_i hne
        exact quiet ⟨hC.1, hC.2.1, hr, pos1 hC.2.2 hr hne⟩
    case one3 r =>
      obtain ⟨rfl, rfl, hr, hh⟩ := hC
      obtain ⟨s1, v, h1, h2, h3, h4⟩ := h.readC hh
      rw [Nat.add_zero, ← hr] at h1
      simp only [h1, tau, Option.some.injEq, Prod.mk.injEq] at hs
      obtain ⟨rfl, rfl, rfl⟩ := hs
      have h5 := h.have_le' hh
      have h6 : SI cfg { s1 with out := s1.out ++ [v] } pre 0 1 :=
        h2.hand (by subst h4; exact h3) (by subst h4; exact h5)
      subst h4
      refine Inv.mkC h6 ⟨rfl, rfl, hr, ?_, ?_⟩ hP hI rfl rfl fun _ _ => rfl
      · exact hh.stable rfl (Nat.le_refl _) (Nat.le_refl _) fun _ _ => rfl
      · exact single_prefix h3
    case one4 v r =>
      obtain ⟨rfl, rfl, hr, hh, ho⟩ := hC
      obtain ⟨s1, h1, h2, h3, h4, h5, h6, h7, h8, h9, h10⟩ := h.destroyC hh (by omega)
      rw [Nat.add_zero, ← hr] at h1
      simp only [h1, orErr, tau, Option.some.injEq, Prod.mk.injEq] at hs
      obtain ⟨rfl, rfl, rfl⟩ := hs
      have hrel : s1.rel = C.s.rel := by simp only [St.rel, h4, h5]
      exact Inv.mkC h2 ⟨rfl, rfl, by rw [hrel]; exact hr, by rw [hrel, h3]; exact ho⟩ hP hI h3 h6 (by simp [h4])
    case one5 v r =>
      obtain ⟨rfl, rfl, hr, ho⟩ := hC
      obtain ⟨nx, hn1, _, hn2, _⟩ := nextIndex_exact (arg := r) (max := cfg.size)
        (by rw [hr]; exact Nat.mod_lt _ h.pos)
      rw [hn1] at hs
      simp only [tau, Option.some.injEq, Prod.mk.injEq] at hs
      obtain ⟨rfl, rfl, rfl⟩ := hs
      have h1 := h.storeR (x := nx) (by rw [hn2, hr]; simp [Nat.add_mod])
      exact Inv.mkC h1 ⟨rfl, rfl⟩ hP hI rfl rfl fun k hk => by
        have := h.vpr
        exact upd_ne _ _ _ (by omega)
    case bulk1 copy lim =>
      simp only [Option.bind_eq_some_iff, Prod.exists] at hs
      obtain ⟨s1, w, h1, hs⟩ := hs
      obtain ⟨v, rfl, h2, h3⟩ := acq h1
      simp only [tau, Option.some.injEq, Prod.mk.injEq] at hs
      obtain ⟨rfl, rfl, rfl⟩ := hs
      exact view h2 ⟨hC.1, hC.2, h3⟩
    case bulk2 copy lim w =>
      obtain ⟨rfl, rfl, k, k1, k2, k3, k4⟩ := hC
      simp only [Option.bind_eq_some_iff, Prod.exists] at hs
      obtain ⟨s1, r, h1, hs⟩ := hs
      obtain ⟨rfl, hr⟩ := h.loadRC h1
      simp only [tau, Option.some.injEq, Prod.mk.injEq] at hs
      obtain ⟨rfl, rfl, rfl⟩ := hs
      exact quiet (bulkPlan_local h hr k1 k2 k3 (k4 rfl)).1
    case bulkRead copy i rem rest outs newR =>
      obtain ⟨rfl, rfl, hrem, hb, ho⟩ := hC
      have hh : Have C.s (outs.length + 1) := hb.hav.mono (by omega)
      obtain ⟨s1, v, h1, h2, h3, h4⟩ := h.readC hh
      rw [← (hb.pos hrem).1] at h1
      simp only [h1, tau, Option.some.injEq, Prod.mk.injEq] at hs
      obtain ⟨rfl, rfl, rfl⟩ := hs
      have h5 := h.have_le' hh
      have h6 : SI cfg { s1 with out := s1.out ++ [v] } pre outs.length (outs.length + 1) :=
        h2.hand (by subst h4; exact h3) (by subst h4; show C.s.rel + _ < _; exact h5)
      have h7 := prefix_snoc ho h3
      have h8 : BP cfg { s1 with out := s1.out ++ [v] } i rem rest outs.length newR := by
        subst h4
        exact hb.stable rfl (Nat.le_refl _) (Nat.le_refl _) fun _ _ => rfl
      have hlen : (outs ++ [v]).length = outs.length + 1 := by simp
      split
      · rename_i ht
        simp only [Bool.and_eq_true] at ht
        have h9 := h6.skip ht.2 (by omega)
        have h10 := (h8.step h.pos hrem)
        rw [← hlen] at h9 h10
        have h11 := h10.next (copy := copy) (by subst h4; exact h7)
        subst h4
        exact Inv.mkC h9 h11 hP hI rfl rfl fun _ _ => rfl
      · rw [← hlen] at h6
        subst h4
        exact Inv.mkC h6 ⟨by simp, rfl, hrem, h8, h7⟩ hP hI rfl rfl fun _ _ => rfl
    case bulkDestroy copy i rem rest outs newR =>
      obtain ⟨hg, rfl, hrem, hb, ho⟩ := hC
      obtain ⟨s1, h1, h2, h3, h4, h5, h6, h7, h8, h9, h10⟩ := h.destroyC (hb.hav.mono (by omega)) (by omega)
      rw [← (hb.pos hrem).1] at h1
      simp only [h1, orErr, tau, Option.some.injEq, Prod.mk.injEq] at hs
      obtain ⟨rfl, rfl, rfl⟩ := hs
      have hrel : s1.rel = C.s.rel := by simp only [St.rel, h4, h5]
      have k1 := (hb.step h.pos hrem).stable (s' := s1) hrel (by rw [h10]; exact Nat.le_refl _)
        (by rw [h10]; exact Nat.le_refl _) (by simp [h7])
      rw [hg] at k1 h2
      exact Inv.mkC h2 (k1.next (by rw [hrel, h3]; exact ho)) hP hI h3 h6 (by simp [h4])
    case bulkStore outs newR =>
      obtain ⟨rfl, rfl, hn, ho⟩ := hC
      simp only [tau, Option.some.injEq, Prod.mk.injEq] at hs
      obtain ⟨rfl, rfl, rfl⟩ := hs
      have h1 := h.storeR hn
      exact Inv.mkC h1 ⟨rfl, rfl⟩ hP hI rfl rfl fun k hk => by
        have := h.vpr
        exact upd_ne _ _ _ (by omega)
    case rav1 =>
      simp only [Option.bind_eq_some_iff, Prod.exists] at hs
      obtain ⟨s1, w, h1, hs⟩ := hs
      obtain ⟨v, rfl, h2, h3⟩ := acq h1
      simp only [tau, Option.some.injEq, Prod.mk.injEq] at hs
      obtain ⟨rfl, rfl, rfl⟩ := hs
      exact view h2 ⟨hC.1, hC.2, h3⟩
    case rav2 w =>
      simp only [Option.bind_eq_some_iff, Prod.exists] at hs
      obtain ⟨s1, r, h1, hs⟩ := hs
      obtain ⟨rfl, hr⟩ := h.loadRC h1
      simp only [tau, Option.some.injEq, Prod.mk.injEq] at hs
      obtain ⟨rfl, rfl, rfl⟩ := hs
      exact quiet ⟨hC.1, hC.2.1⟩
    case frt1 =>
      simp only [Option.bind_eq_some_iff, Prod.exists] at hs
      obtain ⟨s1, w, h1, hs⟩ := hs
      obtain ⟨v, rfl, h2, h3⟩ := acq h1
      simp only [tau, Option.some.injEq, Prod.mk.injEq] at hs
      obtain ⟨rfl, rfl, rfl⟩ := hs
      exact view h2 ⟨hC.1, hC.2, h3⟩
    case frt2 w =>
      simp only [Option.bind_eq_some_iff, Prod.exists] at hs
      obtain ⟨s1, r, h1, hs⟩ := hs
      obtain ⟨rfl, hr⟩ := h.loadRC h1
      simp only [tau, Option.some.injEq, Prod.mk.injEq] at hs
      obtain ⟨rfl, rfl, rfl⟩ := hs
      split
      · exact quiet ⟨hC.1, hC.2.1⟩
      · rename_i hne
        refine quiet ⟨hC.1, hC.2.1, pos1 hC.2.2 hr ?_⟩
        rintro rfl
        exact hne (readAvail_self _ _)
    case frt3 =>
      simp only [Option.bind_eq_some_iff, Prod.exists] at hs
      obtain ⟨s1, r, h1, hs⟩ := hs
      obtain ⟨rfl, hr⟩ := h.loadRC h1
      simp only [tau, Option.some.injEq, Prod.mk.injEq] at hs
      obtain ⟨rfl, rfl, rfl⟩ := hs
      exact quiet ⟨hC.1, hC.2.1, hr, hC.2.2⟩
    case frt4 r =>
      obtain ⟨rfl, rfl, hr, hh⟩ := hC
      obtain ⟨s1, v, h1, h2, h3, h4⟩ := h.readC hh
      rw [Nat.add_zero, ← hr] at h1
      simp only [h1, tau, Option.some.injEq, Prod.mk.injEq] at hs
      obtain ⟨rfl, rfl, rfl⟩ := hs
      subst h4
      exact touched h2 ⟨rfl, rfl⟩
    case ret r =>
      simp only [Option.some.injEq, Prod.mk.injEq] at hs
      obtain ⟨rfl, rfl, rfl⟩ := hs
      exact quiet hC
    all_goals exact hC.elim

theorem Inv.step (hi : Inv cfg C) {t ch s' p' e} (hs : tstep cfg t C.s (C.pc t) ch = some (s', p', e))
    (hok : okSafe C.s (C.pc t) ch) : Inv cfg ⟨s', upd C.pc t p'⟩ := by
  match t with
  | 0 => exact hi.stepP hs hok
  | 1 => exact hi.stepC hs hok
  | t + 2 =>
    obtain ⟨_, _, _, _, _, _, hI⟩ := hi
    rw [hI t] at hs
    cases ch <;> simp [tstep, start] at hs

end step

theorem Inv.reach {C C' : Conf α} {h} (hi : Inv cfg C) (hx : MSteps (mach α cfg) okSafe C h C') : Inv cfg C' := by
  induction hx with
  | refl => exact hi
  | step _ hs hok ih => exact ih.step hs hok

theorem SI.reset (h : SI cfg s [] 0 0) (ht : cfg.trivial = true) : SI cfg s.reset [] 0 0 where
  pos := h.pos
  small := h.small
  wval _ _ := by simp [St.reset]
  wmono _ _ _ _ := Nat.le_refl _
  wcnt := rfl
  rval _ _ := by simp [St.reset]
  rmono _ _ _ _ := Nat.le_refl _
  vpw := rfl
  vpr := Nat.le_refl _
  vcw := Nat.le_refl _
  vcr := rfl
  wview _ _ := by simp [St.reset, View.zero]
  rview _ _ := by simp [St.reset]
  vpc := Nat.le_refl _
  vcp := Nat.le_refl _
  seenW := Nat.le_refl _
  seenR := by simpa [St.reset] using h.pos
  lp := h.lp
  lc := h.lc
  i1 _ _ q _ hq := absurd hq (Nat.not_lt_zero _)
  i2 _ _ _ _ _ := h.lc _
  room := by simpa [St.reset, St.rel] using h.pos
  out := rfl
  gh := Nat.le_refl _
  hl := Nat.le_refl _
  live q _ hq := absurd hq (Nat.not_lt_zero _)
  preLive j v hj := by simp at hj
  dead hf := by simp [ht] at hf
  bal hf := by simp [ht] at hf

theorem Start.inv (hpos : 0 < cfg.size.toNat) (hsmall : cfg.size.toNat ≤ 2 ^ 63) {C : Conf α}
    (hs : Start cfg C) : Inv cfg C ∧ C.s.acc = [] ∧ C.s.out = [] ∧ ∀ t, C.pc t = .idle := by
  induction hs with
  | fresh => exact ⟨Inv.initial hpos hsmall, rfl, rfl, fun _ => rfl⟩
  | reset _ hx hid ht ih =>
    obtain ⟨pre, gone, handed, h, hP, hC, hI⟩ := ih.1.reach hx
    rw [hid] at hP hC
    obtain ⟨rfl, rfl⟩ := hC
    have hP : pre = [] := hP
    subst hP
    exact ⟨⟨[], 0, 0, h.reset ht, by rw [hid]; rfl, by rw [hid]; exact ⟨rfl, rfl⟩, hI⟩, rfl, rfl, hid⟩

/-- The invariant holds in every reachable configuration. -/
theorem Exec.inv (hpos : 0 < cfg.size.toNat) (hsmall : cfg.size.toNat ≤ 2 ^ 63) {h} {C : Conf α}
    (hx : Exec cfg h C) : Inv cfg C := by
  obtain ⟨C₀, h1, h2⟩ := hx
  exact (h1.inv hpos hsmall).1.reach h2

theorem Exec.trans {h h'} {C C' : Conf α} (hx : Exec cfg h C) (h2 : MSteps (mach α cfg) okSafe C h' C') :
    Exec cfg (h ++ h') C' := by
  obtain ⟨C₀, h1, h3⟩ := hx
  exact ⟨C₀, h1, h3.trans h2⟩

end Verif.Spsc
