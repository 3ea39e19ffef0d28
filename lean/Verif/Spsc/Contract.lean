import Verif.Threads
import Verif.Spsc.Reach

/-!
# `spsc_queue`: what each call does while the other thread runs

The contracts `producerPost` and `consumerPost` are specifications; the rest is proof.
-/

namespace Verif.Spsc
open Lin

variable {α : Type} {cfg : Cfg} {s s' s₁ s₂ : St α} {pre : List (Option α)} {gone handed : Nat} {C : Conf α}

/-! ### Contracts -/

/-- `k` is the number of elements released by the consumer up to some store of `read_index_` that is at least as
recent as every such store the producer knew of at `s₁`, and that it knows of at `s₂`. -/
def SeenReleased (s₁ s₂ : St α) (k : Nat) : Prop :=
  ∃ j, s₁.vp.r ≤ j ∧ j ≤ s₂.vp.r ∧ k = (s₂.R j).cnt

/-- `k` is the number of elements accepted up to some store of `write_index_` that is at least as recent as every
such store the consumer knew of at `s₁`, and that it knows of at `s₂`. -/
def SeenAccepted (s₁ s₂ : St α) (k : Nat) : Prop :=
  ∃ j, s₁.vc.w ≤ j ∧ j ≤ s₂.vc.w ∧ k = (s₂.W j).cnt

/-- What a call of the producer that begins in `s₁` and has ended in `s₂` did, for a queue of capacity `cap`.
`acc` is the list of elements accepted since the construction of the queue. -/
def producerPost (cap : Nat) (s₁ s₂ : St α) : Op α → Ret α → Prop
  | .push v, .pushed b => ∃ k, SeenReleased s₁ s₂ k ∧ (b = true ↔ s₁.acc.length < k + cap) ∧
      s₂.acc = if b then s₁.acc ++ [v] else s₁.acc
  | .pushMany vs, .pushedMany n => ∃ k, SeenReleased s₁ s₂ k ∧ n = min vs.length (k + cap - s₁.acc.length) ∧
      s₂.acc = s₁.acc ++ vs.take n
  | .writeAvail, .writeAvail n => SeenReleased s₁ s₂ (s₁.acc.length + n - cap) ∧ cap ≤ s₁.acc.length + n ∧ n ≤ cap ∧
      s₂.acc = s₁.acc
  | .isEmpty, .isEmpty b => ∃ k, SeenReleased s₁ s₂ k ∧ (b = true ↔ s₁.acc.length = k) ∧ s₂.acc = s₁.acc
  | .push _, .threw => s₂.acc = s₁.acc
  | .pushMany _, .threw => s₂.acc = s₁.acc
  | _, _ => False

/-- Nothing was taken or released. -/
def Untaken (s₁ s₂ : St α) : Prop := s₂.rel = s₁.rel ∧ s₂.out = s₁.out

/-- What a call of the consumer that begins in `s₁` and has ended in `s₂` did. `rel` is the number of elements
released, i.e. the number of elements in front of the queue's first element in the list `acc` of all accepted
elements; `out` is the list of elements handed to the consumer so far. -/
def consumerPost (s₁ s₂ : St α) : Op α → Ret α → Prop
  | .pop, .popped none => SeenAccepted s₁ s₂ s₁.rel ∧ Untaken s₁ s₂
  | .pop, .popped (some v) => (∃ k, SeenAccepted s₁ s₂ k ∧ s₁.rel < k) ∧ s₂.acc[s₁.rel]? = some v ∧
      s₂.rel = s₁.rel + 1 ∧ s₂.out = s₁.out ++ [v]
  | .popMany _ lim, .poppedMany vs => ∃ k, SeenAccepted s₁ s₂ k ∧ s₁.rel ≤ k ∧
      vs.length = atMost lim (k - s₁.rel) ∧ vs <+: s₂.acc.drop s₁.rel ∧
      s₂.rel = s₁.rel + vs.length ∧ s₂.out = s₁.out ++ vs
  | .readAvail, .readAvail n => SeenAccepted s₁ s₂ (s₁.rel + n) ∧ (0 < n → KnowsNonempty s₂) ∧ Untaken s₁ s₂
  | .isEmpty, .isEmpty b => ∃ k, SeenAccepted s₁ s₂ k ∧ (b = true ↔ k = s₁.rel) ∧ Untaken s₁ s₂
  | .front _, .front v => (∃ k, SeenAccepted s₁ s₂ k ∧ s₁.rel < k) ∧ s₂.acc[s₁.rel]? = some v ∧ Untaken s₁ s₂
  | .front true, .asserted => SeenAccepted s₁ s₂ s₁.rel ∧ Untaken s₁ s₂
  | .pop, .threw => Untaken s₁ s₂
  | .popMany _ _, .threw => Untaken s₁ s₂
  | _, _ => False

/-! ### How steps change the state -/

/-- Changes made by steps of the producer. -/
structure Ev0 (s s' : St α) : Prop where
  R : s'.R = s.R
  rlast : s'.rlast = s.rlast
  vc : s'.vc = s.vc
  out : s'.out = s.out
  lastC : s'.lastC = s.lastC
  vpr : s.vp.r ≤ s'.vp.r
  wlast : s.wlast ≤ s'.wlast
  W : ∀ k, k ≤ s.wlast → s'.W k = s.W k
  acc : s.acc <+: s'.acc

/-- Changes made by steps of the consumer. -/
structure Ev1 (s s' : St α) : Prop where
  W : s'.W = s.W
  wlast : s'.wlast = s.wlast
  vp : s'.vp = s.vp
  acc : s'.acc = s.acc
  lastP : s'.lastP = s.lastP
  vcw : s.vc.w ≤ s'.vc.w
  vcp : s.vc.p ≤ s'.vc.p
  rlast : s.rlast ≤ s'.rlast
  R : ∀ k, k ≤ s.rlast → s'.R k = s.R k
  out : s.out <+: s'.out

theorem Ev0.rfl : Ev0 s s :=
  ⟨.refl _, .refl _, .refl _, .refl _, .refl _, Nat.le_refl _, Nat.le_refl _, fun _ _ => .refl _, List.prefix_refl _⟩

theorem Ev1.rfl : Ev1 s s :=
  ⟨.refl _, .refl _, .refl _, .refl _, .refl _, Nat.le_refl _, Nat.le_refl _, Nat.le_refl _, fun _ _ => .refl _, List.prefix_refl _⟩

theorem Ev0.rel (h : Ev0 s s') : s'.rel = s.rel := by simp only [St.rel, h.R, h.rlast]

theorem touchP_ev {i} (h : s.touchP cfg i = some s') : Ev0 s s' ∧ s'.acc = s.acc := by
  unfold St.touchP at h
  split at h
  · simp only [Option.some.injEq] at h; subst h; exact ⟨{ Ev0.rfl with }, .refl _⟩
  · simp at h

theorem touchC_ev {i} (h : s.touchC cfg i = some s') : Ev1 s s' ∧ s'.rel = s.rel ∧ s'.out = s.out := by
  unfold St.touchC at h
  split at h
  · simp only [Option.some.injEq] at h; subst h; exact ⟨{ Ev1.rfl with }, .refl _, .refl _⟩
  · simp at h

theorem construct_ev {i v} (h : s.construct cfg i v = some s') : Ev0 s s' ∧ s'.acc = s.acc := by
  unfold St.construct at h
  split at h
  · simp at h
  · simp only [Option.map_eq_some_iff] at h
    obtain ⟨s₁, h1, rfl⟩ := h
    obtain ⟨h2, h3⟩ := touchP_ev h1
    exact ⟨{ h2 with }, h3⟩

theorem destroyP_ev {i} (h : s.destroyP cfg i = some s') : Ev0 s s' ∧ s'.acc = s.acc := by
  unfold St.destroyP at h
  split at h
  · simp only [Option.map_eq_some_iff] at h
    obtain ⟨s₁, h1, rfl⟩ := h
    obtain ⟨h2, h3⟩ := touchP_ev h1
    exact ⟨{ h2 with }, h3⟩
  · simp at h

theorem readC_ev {i v} (h : s.readC cfg i = some (s', v)) : Ev1 s s' ∧ s'.rel = s.rel ∧ s'.out = s.out := by
  unfold St.readC at h
  split at h
  · simp at h
  · simp only [Option.map_eq_some_iff, Prod.mk.injEq] at h
    obtain ⟨s₁, h1, rfl, rfl⟩ := h
    exact touchC_ev h1

theorem destroyC_ev {i} (h : s.destroyC cfg i = some s') : Ev1 s s' ∧ s'.rel = s.rel ∧ s'.out = s.out := by
  unfold St.destroyC at h
  split at h
  · simp only [Option.map_eq_some_iff] at h
    obtain ⟨s₁, h1, rfl⟩ := h
    obtain ⟨h2, h3, h4⟩ := touchC_ev h1
    exact ⟨{ h2 with }, h3, h4⟩
  · simp at h

theorem loadWP_ev {j w} (h : s.loadWP j = some (s', w)) : Ev0 s s' ∧ s'.acc = s.acc := by
  unfold St.loadWP at h
  split at h
  · simp only [Option.some.injEq, Prod.mk.injEq] at h; obtain ⟨rfl, rfl⟩ := h; exact ⟨{ Ev0.rfl with }, .refl _⟩
  · simp at h

theorem loadRP_ev {a j w} (h : s.loadRP a j = some (s', w)) : Ev0 s s' ∧ s'.acc = s.acc := by
  unfold St.loadRP at h
  split at h
  · rename_i hj
    simp only [Option.some.injEq, Prod.mk.injEq] at h; obtain ⟨rfl, rfl⟩ := h
    refine ⟨{ Ev0.rfl with vpr := ?_ }, .refl _⟩
    dsimp only
    split
    · exact Nat.le_trans hj.1 (Nat.le_max_left _ _)
    · exact hj.1
  · simp at h

theorem loadWC_ev {a j w} (h : s.loadWC a j = some (s', w)) : Ev1 s s' ∧ s'.rel = s.rel ∧ s'.out = s.out := by
  unfold St.loadWC at h
  split at h
  · rename_i hj
    simp only [Option.some.injEq, Prod.mk.injEq] at h; obtain ⟨rfl, rfl⟩ := h
    refine ⟨{ Ev1.rfl with vcw := ?_, vcp := ?_ }, .refl _, .refl _⟩
    · dsimp only
      split
      · exact Nat.le_trans hj.1 (Nat.le_max_left _ _)
      · exact hj.1
    · dsimp only
      split
      · exact Nat.le_max_left _ _
      · exact Nat.le_refl _
  · simp at h

theorem loadRC_ev {j w} (h : s.loadRC j = some (s', w)) : Ev1 s s' ∧ s'.rel = s.rel ∧ s'.out = s.out := by
  unfold St.loadRC at h
  split at h
  · simp only [Option.some.injEq, Prod.mk.injEq] at h; obtain ⟨rfl, rfl⟩ := h; exact ⟨{ Ev1.rfl with }, .refl _, .refl _⟩
  · simp at h

theorem storeW_ev {x vs} : Ev0 s (s.storeW x vs) :=
  { Ev0.rfl with
    wlast := Nat.le_succ _, acc := List.prefix_append _ _
    W := fun k hk => upd_ne _ _ _ (by omega) }

theorem storeR_ev {x k} : Ev1 s (s.storeR x k) :=
  { Ev1.rfl with
    rlast := Nat.le_succ _
    R := fun k hk => upd_ne _ _ _ (by omega) }

theorem orErr_ev {T : St α → St α → Prop} {x : Option (St α)} {p p' : PC α} {e} (hr : T s s) (hx : ∀ s', x = some s' → T s s')
    (h : orErr s x p = some (s', p', e)) : T s s' := by
  unfold orErr at h
  split at h <;> simp only [tau, Option.some.injEq, Prod.mk.injEq] at h <;> obtain ⟨rfl, rfl, rfl⟩ := h
  · exact hr
  · exact hx _ (.refl _)

theorem tau_inv {p p' : PC α} {e} (h : tau s p = some (s', p', e)) : s' = s ∧ p' = p ∧ e = none := by
  simp only [tau, Option.some.injEq, Prod.mk.injEq] at h
  exact ⟨h.1.symm, h.2.1.symm, h.2.2.symm⟩

theorem Inv.ev0 (hi : Inv cfg C) {ch : Choice α} {s' p' e} (hs : tstep cfg 0 C.s (C.pc 0) ch = some (s', p', e)) :
    Ev0 C.s s' := by
  obtain ⟨pre, gone, handed, -, hP, -⟩ := hi
  generalize C.pc 0 = p at hs hP
  cases ch with
  | call o =>
    cases p <;> simp [tstep] at hs
    obtain ⟨p1, h1, rfl, rfl, rfl⟩ := hs
    exact .rfl
  | sync =>
    obtain ⟨rfl, -, -⟩ := tau_inv hs
    exact { Ev0.rfl with vpr := Nat.le_max_left _ _ }
  | swap j =>
    cases p <;> simp only [tstep, reduceCtorEq] at hs
    simp only [Option.bind_eq_some_iff, Prod.exists] at hs
    obtain ⟨s1, w, h1, hs⟩ := hs
    obtain ⟨rfl, -, -⟩ := tau_inv hs; exact (loadRP_ev h1).1
  | throw =>
    cases p <;> simp only [tstep, reduceCtorEq] at hs
    case push3 => obtain ⟨rfl, -, -⟩ := tau_inv hs; exact .rfl
    case rngCopy => obtain ⟨rfl, -, -⟩ := tau_inv hs; exact .rfl
    all_goals exact hP.elim
  | go j =>
    cases p <;> simp only [tstep] at hs
    case idle => simp at hs
    case push1 v =>
      simp only [Option.bind_eq_some_iff, Prod.exists] at hs
      obtain ⟨s1, w, h1, hs⟩ := hs
      split at hs <;> obtain ⟨rfl, -, -⟩ := tau_inv hs <;> exact (loadWP_ev h1).1
    case push2 => 
      simp only [Option.bind_eq_some_iff, Prod.exists] at hs
      obtain ⟨s1, w, h1, hs⟩ := hs
      obtain ⟨rfl, -, -⟩ := tau_inv hs; exact (loadRP_ev h1).1
    case push3 => exact orErr_ev (T := Ev0) .rfl (fun _ h => (construct_ev h).1) hs
    case push4 => obtain ⟨rfl, -, -⟩ := tau_inv hs; exact storeW_ev
    case rng1 => 
      simp only [Option.bind_eq_some_iff, Prod.exists] at hs
      obtain ⟨s1, w, h1, hs⟩ := hs
      obtain ⟨rfl, -, -⟩ := tau_inv hs; exact (loadWP_ev h1).1
    case rng2 => 
      simp only [Option.bind_eq_some_iff, Prod.exists] at hs
      obtain ⟨s1, w, h1, hs⟩ := hs
      obtain ⟨rfl, -, -⟩ := tau_inv hs; exact (loadRP_ev h1).1
    case rngCopy start dst xs rest second total newW =>
      cases xs with
      | nil => simp at hs
      | cons => exact orErr_ev (T := Ev0) .rfl (fun _ h => (construct_ev h).1) hs
    case rngUnwind => exact orErr_ev (T := Ev0) .rfl (fun _ h => (destroyP_ev h).1) hs
    case rngStore => obtain ⟨rfl, -, -⟩ := tau_inv hs; exact storeW_ev
    case wav1 => 
      simp only [Option.bind_eq_some_iff, Prod.exists] at hs
      obtain ⟨s1, w, h1, hs⟩ := hs
      obtain ⟨rfl, -, -⟩ := tau_inv hs; exact (loadWP_ev h1).1
    case wav2 => 
      simp only [Option.bind_eq_some_iff, Prod.exists] at hs
      obtain ⟨s1, w, h1, hs⟩ := hs
      obtain ⟨rfl, -, -⟩ := tau_inv hs; exact (loadRP_ev h1).1
    case emp1 => 
      simp only [Option.bind_eq_some_iff, Prod.exists] at hs
      obtain ⟨s1, w, h1, hs⟩ := hs
      obtain ⟨rfl, -, -⟩ := tau_inv hs; exact (loadWP_ev h1).1
    case emp3 =>
      simp only [Option.bind_eq_some_iff, Prod.exists] at hs
      obtain ⟨s1, w, h1, hs⟩ := hs
      obtain ⟨rfl, -, -⟩ := tau_inv hs; exact (loadWP_ev h1).1
    case emp2 => 
      simp only [Option.bind_eq_some_iff, Prod.exists] at hs
      obtain ⟨s1, w, h1, hs⟩ := hs
      obtain ⟨rfl, -, -⟩ := tau_inv hs; exact (loadRP_ev h1).1
    case ret =>
      simp only [Option.some.injEq, Prod.mk.injEq] at hs
      obtain ⟨rfl, rfl, rfl⟩ := hs
      exact .rfl
    all_goals exact hP.elim

theorem Inv.ev1 (hi : Inv cfg C) {ch : Choice α} {s' p' e} (hs : tstep cfg 1 C.s (C.pc 1) ch = some (s', p', e)) :
    Ev1 C.s s' := by
  obtain ⟨pre, gone, handed, -, -, hC, -⟩ := hi
  generalize C.pc 1 = p at hs hC
  cases ch with
  | call o =>
    cases p <;> simp [tstep] at hs
    obtain ⟨p1, h1, rfl, rfl, rfl⟩ := hs
    exact .rfl
  | sync =>
    obtain ⟨rfl, -, -⟩ := tau_inv hs
    exact { Ev1.rfl with vcw := Nat.le_max_left _ _, vcp := Nat.le_max_left _ _ }
  | swap j =>
    cases p <;> simp only [tstep, reduceCtorEq] at hs
    simp only [Option.bind_eq_some_iff, Prod.exists] at hs
    obtain ⟨s1, w, h1, hs⟩ := hs
    obtain ⟨rfl, -, -⟩ := tau_inv hs; exact (loadRC_ev h1).1
  | throw =>
    cases p <;> simp only [tstep, reduceCtorEq] at hs
    case one3 | bulkRead =>
      split at hs <;> obtain ⟨rfl, -, -⟩ := tau_inv hs
      · exact .rfl
      · exact (readC_ev (by assumption)).1
    all_goals exact hC.elim
  | go j =>
    cases p <;> simp only [tstep] at hs
    case idle => simp at hs
    case one3 | bulkRead =>
      split at hs <;> obtain ⟨rfl, -, -⟩ := tau_inv hs
      · exact .rfl
      · have h1 := readC_ev (by assumption)
        exact { h1.1 with out := by rw [← h1.2.2]; exact List.prefix_append _ _ }
    case one4 => exact orErr_ev (T := Ev1) .rfl (fun _ h => (destroyC_ev h).1) hs
    case one5 =>
      split at hs <;> obtain ⟨rfl, -, -⟩ := tau_inv hs
      · exact .rfl
      · exact storeR_ev
    case bulkDestroy => exact orErr_ev (T := Ev1) .rfl (fun _ h => (destroyC_ev h).1) hs
    case bulkStore => obtain ⟨rfl, -, -⟩ := tau_inv hs; exact storeR_ev
    case frt4 =>
      split at hs <;> obtain ⟨rfl, -, -⟩ := tau_inv hs
      · exact .rfl
      · exact (readC_ev (by assumption)).1
    case ret =>
      simp only [Option.some.injEq, Prod.mk.injEq] at hs
      obtain ⟨rfl, rfl, rfl⟩ := hs
      exact .rfl
    case emp1 | emp3 | one1 | bulk1 | rav1 | frt1 =>
      simp only [Option.bind_eq_some_iff, Prod.exists] at hs
      obtain ⟨s1, w, h1, hs⟩ := hs
      obtain ⟨rfl, -, -⟩ := tau_inv hs; exact (loadWC_ev h1).1
    case emp2 | one2 | bulk2 | rav2 | frt2 | frt3 =>
      simp only [Option.bind_eq_some_iff, Prod.exists] at hs
      obtain ⟨s1, w, h1, hs⟩ := hs
      obtain ⟨rfl, -, -⟩ := tau_inv hs; exact (loadRC_ev h1).1
    all_goals exact hC.elim

theorem Inv.tid (hi : Inv cfg C) {t ch s' p' e} (hs : tstep cfg t C.s (C.pc t) ch = some (s', p', e)) :
    t = 0 ∨ t = 1 := by
  match t with
  | 0 => exact .inl rfl
  | 1 => exact .inr rfl
  | t + 2 =>
    obtain ⟨_, _, _, _, _, _, hI⟩ := hi
    rw [hI t] at hs
    cases ch <;> simp [tstep, start] at hs

/-! ### The producer's calls -/

/-- Capacity of a queue whose internal size is `cfg.size`: one slot stays unused (spsc_queue.hpp:424, 544). -/
def Cfg.cap (cfg : Cfg) : Nat := cfg.size.toNat - 1

theorem SeenReleased.ev0 {k} (h : SeenReleased s₁ s k) (he : Ev0 s s') : SeenReleased s₁ s' k := by
  obtain ⟨j, h1, h2, h3⟩ := h
  exact ⟨j, h1, Nat.le_trans h2 he.vpr, by rw [he.R]; exact h3⟩

theorem SeenReleased.ev1 {k} (h : SeenReleased s₁ s k) (hv : s.vp.r ≤ s.rlast) (he : Ev1 s s') :
    SeenReleased s₁ s' k := by
  obtain ⟨j, h1, h2, h3⟩ := h
  exact ⟨j, h1, by rw [he.vp]; exact h2, by rw [he.R j (by omega)]; exact h3⟩

theorem SeenAccepted.ev1 {k} (h : SeenAccepted s₁ s k) (he : Ev1 s s') : SeenAccepted s₁ s' k := by
  obtain ⟨j, h1, h2, h3⟩ := h
  exact ⟨j, h1, Nat.le_trans h2 he.vcw, by rw [he.W]; exact h3⟩

theorem SeenAccepted.ev0 {k} (h : SeenAccepted s₁ s k) (hv : s.vc.w ≤ s.wlast) (he : Ev0 s s') :
    SeenAccepted s₁ s' k := by
  obtain ⟨j, h1, h2, h3⟩ := h
  exact ⟨j, h1, by rw [he.vc]; exact h2, by rw [he.W j (by omega)]; exact h3⟩

theorem producerPost.ev {cap : Nat} {o : Op α} {r : Ret α} (h : producerPost cap s₁ s o r)
    (hs : ∀ k, SeenReleased s₁ s k → SeenReleased s₁ s' k) (ha : s'.acc = s.acc) : producerPost cap s₁ s' o r := by
  unfold producerPost at h ⊢
  split at h
  · obtain ⟨k, h1, h2, h3⟩ := h; exact ⟨k, hs k h1, h2, by rw [ha]; exact h3⟩
  · obtain ⟨k, h1, h2, h3⟩ := h; exact ⟨k, hs k h1, h2, by rw [ha]; exact h3⟩
  · obtain ⟨h1, h2, h3, h4⟩ := h; exact ⟨hs _ h1, h2, h3, by rw [ha]; exact h4⟩
  · obtain ⟨k, h1, h2, h3⟩ := h; exact ⟨k, hs k h1, h2, by rw [ha]; exact h3⟩
  · rw [ha]; exact h
  · rw [ha]; exact h
  · exact h

/-- Nothing accepted yet by the call that began in `s₁`. -/
def baseP (s₁ s : St α) : Prop := s.acc = s₁.acc ∧ s₁.vp.r ≤ s.vp.r

/-- The producer's call `o` that began in `s₁`, at each program counter. -/
def midP (cfg : Cfg) (s₁ : St α) (o : Op α) (s : St α) : PC α → Prop
  | .push1 v | .push2 v _ _ => o = .push v ∧ baseP s₁ s
  | .push3 v _ _ | .push4 v _ => o = .push v ∧ baseP s₁ s ∧
      ∃ k, SeenReleased s₁ s k ∧ s₁.acc.length < k + cfg.cap
  | .rng1 vs | .rng2 vs _ => o = .pushMany vs ∧ baseP s₁ s
  | .rngCopy _ _ _ _ _ total _ | .rngStore total _ => ∃ vs, o = .pushMany vs ∧ baseP s₁ s ∧
      ∃ k, SeenReleased s₁ s k ∧ total = vs.take (k + cfg.cap - s₁.acc.length)
  | .rngUnwind _ _ => (∃ vs, o = .pushMany vs) ∧ baseP s₁ s
  | .wav1 | .wav2 _ => o = .writeAvail ∧ baseP s₁ s
  | .emp1 | .emp2 _ => o = .isEmpty ∧ baseP s₁ s
  | .emp3 r => o = .isEmpty ∧ baseP s₁ s ∧ ∃ k, SeenReleased s₁ s k ∧ r.toNat = k % cfg.size.toNat ∧
      k ≤ s₁.acc.length ∧ s₁.acc.length < k + cfg.size.toNat
  | .ret r => s₁.vp.r ≤ s.vp.r ∧ producerPost cfg.cap s₁ s o r
  | _ => False

theorem midP.ev {o : Op α} {p : PC α} (h : midP cfg s₁ o s p)
    (hs : ∀ k, SeenReleased s₁ s k → SeenReleased s₁ s' k) (ha : s'.acc = s.acc) (hr : s.vp.r ≤ s'.vp.r) :
    midP cfg s₁ o s' p := by
  have hb : baseP s₁ s → baseP s₁ s' := fun h => ⟨by rw [ha]; exact h.1, Nat.le_trans h.2 hr⟩
  cases p <;> simp only [midP] at h ⊢
  case push1 | push2 | rng1 | rng2 | rngUnwind | wav1 | wav2 | emp1 | emp2 => exact ⟨h.1, hb h.2⟩
  case push3 | push4 | emp3 => obtain ⟨h1, h2, k, h3, h4⟩ := h; exact ⟨h1, hb h2, k, hs k h3, h4⟩
  case rngCopy | rngStore =>
    obtain ⟨vs, h1, h2, k, h3, h4⟩ := h; exact ⟨vs, h1, hb h2, k, hs k h3, h4⟩
  case ret => exact ⟨Nat.le_trans h.1 hr, h.2.ev hs ha⟩

theorem midP.rngNext {o : Op α} {a b : Nat} {xs rest : List α} {second : Bool} {total : List α} {nw : SizeT}
    (h : midP cfg s₁ o s (.rngStore total nw)) : midP cfg s₁ o s (rngNext a b xs rest second total nw) := by
  unfold Spsc.rngNext
  split
  · split
    · exact h
    · exact h
  · exact h

theorem rngPlan_shape (cfg : Cfg) (vs : List α) (w r : SizeT) :
    (∃ x, rngPlan cfg vs w r = .ret x) ∨
    ∃ a b xs rest second total nw, rngPlan cfg vs w r = rngNext a b xs rest second total nw ∧
      ((∃ start dst xs' rest' second', rngPlan cfg vs w r = .rngCopy start dst xs' rest' second' total nw) ∨
        rngPlan cfg vs w r = .rngStore total nw) := by
  have key : ∀ {a b : Nat} {xs rest : List α} {second : Bool} {total : List α} {nw : SizeT},
      (∃ start dst xs' rest' second', rngNext a b xs rest second total nw =
        .rngCopy start dst xs' rest' second' total nw) ∨ rngNext a b xs rest second total nw = .rngStore total nw := by
    intro a b xs rest second total nw
    unfold rngNext
    split
    · split
      · exact .inr rfl
      · exact .inl ⟨_, _, _, _, _, rfl⟩
    · exact .inl ⟨_, _, _, _, _, rfl⟩
  unfold rngPlan
  simp only []
  split
  · exact .inl ⟨_, rfl⟩
  · refine .inr ?_
    split
    · exact ⟨_, _, _, _, _, _, _, rfl, key⟩
    · exact ⟨_, _, _, _, _, _, _, rfl, key⟩

/-- Two indices are equal iff the counts they stand for are. -/
theorem index_eq_iff {n a b : Nat} {x y : SizeT} (hx : x.toNat = a % n) (hy : y.toNat = b % n) (h1 : b ≤ a)
    (h2 : a < b + n) : (x == y) = true ↔ a = b := by
  constructor
  · intro h
    have h : x = y := by simpa using h
    subst h
    have h3 : (a - b) % n = 0 := by
      have := Nat.sub_mod_eq_zero_of_mod_eq (hx.symm.trans hy)
      exact this
    rw [Nat.mod_eq_of_lt (by omega)] at h3
    omega
  · rintro rfl
    simp
    exact BitVec.eq_of_toNat_eq (by rw [hx, hy])

theorem mach_lawful : (mach α cfg).Lawful := by
  intro t s p ch s' p' e hs
  simp only [mach] at hs
  cases ch with
  | call o =>
    cases p <;> simp [tstep] at hs
    obtain ⟨p1, _, rfl, rfl, rfl⟩ := hs
    exact .inl ⟨rfl, o, rfl⟩
  | sync =>
    simp only [tstep] at hs
    split at hs <;> simp [tau] at hs
  | swap j =>
    cases p <;> simp only [tstep, reduceCtorEq] at hs
    split at hs <;> simp [tau, Option.bind_eq_some_iff] at hs
  | throw =>
    cases p <;> simp only [tstep, reduceCtorEq] at hs
    case push3 | rngCopy => simp [tau] at hs
    all_goals (split at hs <;> simp [tau] at hs)
  | go j =>
    cases p <;> simp only [tstep, reduceCtorEq] at hs
    case ret r =>
      simp only [Option.some.injEq, Prod.mk.injEq] at hs
      obtain ⟨rfl, rfl, rfl⟩ := hs
      exact .inr ⟨r, rfl, rfl, rfl⟩
    all_goals exfalso
    all_goals try (simp [tau, Option.bind_eq_some_iff] at hs; done)
    case push1 =>
      simp only [Option.bind_eq_some_iff, Prod.exists] at hs
      obtain ⟨_, _, _, hs⟩ := hs
      split at hs <;> simp [tau] at hs
    case rngCopy xs _ _ _ _ =>
      cases xs <;> simp only [tstep, reduceCtorEq] at hs
      simp only [orErr] at hs
      split at hs <;> simp [tau] at hs
    case emp1 | emp2 | emp3 => split at hs <;> simp [tau, Option.bind_eq_some_iff] at hs
    all_goals (first | (simp only [orErr] at hs; split at hs <;> simp [tau] at hs; done) | (split at hs <;> simp [tau] at hs; done))

theorem mach_calm : (mach α cfg).Calm := by
  intro t s ch s' p' hs
  simp only [mach] at hs ⊢
  cases ch <;> simp [tstep] at hs
  split at hs <;> simp [tau] at hs <;> exact hs.2.symm

theorem Inv.duringP (hi : Inv cfg C) {o : Op α} {ch : Choice α} {s' p'}
    (hs : tstep cfg 0 C.s (C.pc 0) ch = some (s', p', none)) (hok : okSafe C.s (C.pc 0) ch)
    (hm : midP cfg s₁ o C.s (C.pc 0)) : midP cfg s₁ o s' p' := by
  have he := hi.ev0 hs
  obtain ⟨pre, gone, handed, h, hP, hC, hI⟩ := hi
  generalize hp : C.pc 0 = p at hs hP hok hm
  have hpos := h.pos
  have hhl := h.hl
  have hseen := fun k (hk : SeenReleased s₁ C.s k) => hk.ev0 he
  have next : s'.acc = C.s.acc → ∀ q, midP cfg s₁ o C.s q → midP cfg s₁ o s' q := fun ha q hq =>
    hq.ev hseen ha he.vpr
  cases ch with
  | call o => cases p <;> simp [tstep] at hs
  | sync =>
    obtain ⟨rfl, rfl, -⟩ := tau_inv hs
    exact next rfl _ hm
  | swap j =>
    cases p <;> simp only [tstep, reduceCtorEq] at hs
    obtain ⟨rfl, hb⟩ := hm
    simp only [Option.bind_eq_some_iff, Prod.exists] at hs
    obtain ⟨s1, r, h1, hs⟩ := hs
    obtain ⟨vv, rfl, h2, h3, h4, h5, h6, h7, h8, h9, h10⟩ := h.loadRP h1
    obtain ⟨rfl, rfl, -⟩ := tau_inv hs
    have hb' : baseP s₁ { C.s with vp := vv } := ⟨hb.1, Nat.le_trans hb.2 he.vpr⟩
    have hacc : C.s.acc.length = s₁.acc.length := by rw [hb.1]
    exact ⟨rfl, hb', _, ⟨j, Nat.le_trans hb.2 h3, h5, rfl⟩, h6, by show (C.s.R j).cnt ≤ _; omega,
      by show _ < (C.s.R j).cnt + _; omega⟩
  | throw =>
    cases p <;> simp only [tstep, reduceCtorEq] at hs
    case push3 =>
      obtain ⟨rfl, rfl, -⟩ := tau_inv hs
      obtain ⟨rfl, h1, _⟩ := hm
      exact ⟨h1.2, h1.1⟩
    case rngCopy =>
      obtain ⟨rfl, rfl, -⟩ := tau_inv hs
      obtain ⟨vs, rfl, h1, _⟩ := hm
      split
      · exact ⟨h1.2, h1.1⟩
      · exact ⟨⟨vs, rfl⟩, h1⟩
    all_goals exact hP.elim
  | go j =>
    have base : ∀ {s'}, Ev0 C.s s' → s'.acc = C.s.acc → baseP s₁ C.s → baseP s₁ s' := fun he ha hb =>
      ⟨by rw [ha]; exact hb.1, Nat.le_trans hb.2 he.vpr⟩
    cases p <;> simp only [tstep] at hs
    case idle => simp at hs
    case push1 v =>
      simp only [Option.bind_eq_some_iff, Prod.exists] at hs
      obtain ⟨s1, w, h1, hs⟩ := hs
      obtain ⟨rfl, hw⟩ := h.loadWP h1
      obtain ⟨nx, hn1, _, hn2, _⟩ := nextIndex_exact (arg := w) (max := cfg.size)
        (by rw [hw]; exact Nat.mod_lt _ h.pos)
      rw [hn1] at hs
      obtain ⟨rfl, rfl, -⟩ := tau_inv hs
      exact hm
    case push2 v w nx =>
      obtain ⟨rfl, hb⟩ := hm
      obtain ⟨rfl, hw, hn⟩ := hP
      simp only [Option.bind_eq_some_iff, Prod.exists] at hs
      obtain ⟨s1, r, h1, hs⟩ := hs
      obtain ⟨vv, rfl, h2, h3, h4, h5, h6, h7, h8, h9, h10⟩ := h.loadRP h1
      obtain ⟨rfl, rfl, -⟩ := tau_inv hs
      have hb' : baseP s₁ { C.s with vp := vv } := base he rfl hb
      have hsn : SeenReleased s₁ { C.s with vp := vv } (C.s.R j).cnt := ⟨j, Nat.le_trans hb.2 h3, h5, rfl⟩
      have hacc : C.s.acc.length = s₁.acc.length := by rw [hb.1]
      split
      · rename_i heq
        refine ⟨hb'.2, _, hsn, ?_, hb'.1⟩
        simp only [Bool.false_eq_true, false_iff]
        intro hlt
        simp only [Cfg.cap] at hlt
        have := mod_inj (n := cfg.size.toNat) (D := (C.s.R j).cnt) (q := C.s.acc.length + 1) (q' := (C.s.R j).cnt)
          (by omega) (by omega) (by omega) (by omega) (by rw [← hn, ← h6, heq])
        omega
      · rename_i hne
        refine ⟨rfl, hb', _, hsn, ?_⟩
        rcases Nat.lt_or_ge (C.s.acc.length + 1) ((C.s.R j).cnt + cfg.size.toNat) with hlt | hge
        · simp only [Cfg.cap]; omega
        · exfalso
          apply hne
          apply BitVec.eq_of_toNat_eq
          rw [hn, h6, show C.s.acc.length + 1 = (C.s.R j).cnt + cfg.size.toNat by omega, Nat.add_mod_right]
    case push3 v w nx =>
      obtain ⟨rfl, hw, hn, hf⟩ := hP
      obtain ⟨s1, h1, h2, h3, _⟩ := h.construct v hf
      simp only [List.length_nil, Nat.add_zero] at h1
      rw [hw, h1] at hs
      obtain ⟨rfl, rfl, -⟩ := tau_inv hs
      exact next h3 _ hm
    case push4 v nx =>
      obtain ⟨rfl, hb, k, hk, hlt⟩ := hm
      obtain ⟨rfl, rfl, -⟩ := tau_inv hs
      refine ⟨hb.2, k, hk.ev0 he, by simpa using hlt, ?_⟩
      show C.s.acc ++ [v] = _
      rw [hb.1]; rfl
    case rng1 vs =>
      simp only [Option.bind_eq_some_iff, Prod.exists] at hs
      obtain ⟨s1, w, h1, hs⟩ := hs
      obtain ⟨rfl, hw⟩ := h.loadWP h1
      obtain ⟨rfl, rfl, -⟩ := tau_inv hs
      exact hm
    case rng2 vs w =>
      obtain ⟨rfl, hb⟩ := hm
      obtain ⟨rfl, hw⟩ := hP
      simp only [Option.bind_eq_some_iff, Prod.exists] at hs
      obtain ⟨s1, r, h1, hs⟩ := hs
      obtain ⟨vv, rfl, h2, h3, h4, h5, h6, h7, h8, h9, h10⟩ := h.loadRP h1
      obtain ⟨rfl, rfl, -⟩ := tau_inv hs
      have hb' : baseP s₁ { C.s with vp := vv } := base he rfl hb
      have hsn : SeenReleased s₁ { C.s with vp := vv } (C.s.R j).cnt := ⟨j, Nat.le_trans hb.2 h3, h5, rfl⟩
      have hacc : C.s.acc.length = s₁.acc.length := by rw [hb.1]
      obtain ⟨-, g1, g2⟩ := rngPlan_local h2 (vs := vs) hw h5 h6 h7 h8 (h9 rfl)
      rcases rngPlan_shape cfg vs w r with ⟨x, hx⟩ | ⟨a, b, xs, rest, second, total, nw, hx, hy⟩
      · obtain ⟨rfl, hfull⟩ := g2 x hx
        rw [hx]
        refine ⟨hb'.2, _, hsn, ?_, by simpa using hb'.1⟩
        have hfull : C.s.acc.length + 1 = (C.s.R j).cnt + cfg.size.toNat := hfull
        simp only [Cfg.cap]; omega
      · have htot : total = vs.take ((C.s.R j).cnt + cfg.size.toNat - 1 - C.s.acc.length) := g1 total nw hy
        rw [hx]
        refine midP.rngNext ⟨vs, rfl, hb', _, hsn, ?_⟩
        rw [htot]; congr 1
        simp only [Cfg.cap]; omega
    case rngCopy start dst xs rest second total newW =>
      obtain ⟨h1, done, rfl, h3⟩ := hP
      cases xs with
      | nil => exact absurd rfl h1
      | cons x xs =>
        obtain ⟨hd, _⟩ := h3.hdst h1
        have hf : Free cfg C.s ((done.map some).length + 1) := h3.free.mono (by rw [h3.tot]; simp)
        obtain ⟨s1, k1, k2, k3, _⟩ := h.construct x hf
        simp only [List.length_map] at k1
        simp only [hd, k1, orErr] at hs
        obtain ⟨rfl, rfl, -⟩ := tau_inv hs
        exact midP.rngNext (next k3 (.rngStore total newW) hm)
    case rngUnwind i stop =>
      obtain ⟨h1, hb⟩ := hm
      have key : ∀ x, C.s.destroyP cfg i = some x → s'.acc = C.s.acc → midP cfg s₁ o s' p' := by
        intro x hx ha
        rw [hx] at hs
        obtain ⟨rfl, rfl, -⟩ := tau_inv hs
        split
        · obtain ⟨vs, rfl⟩ := h1
          exact ⟨Nat.le_trans hb.2 he.vpr, ha.trans hb.1⟩
        · exact ⟨h1, ha.trans hb.1, Nat.le_trans hb.2 he.vpr⟩
      obtain ⟨d, xs, g1, rfl, hi, hst, hle, hf⟩ := hP
      cases xs with
      | nil => exact absurd rfl g1
      | cons x xs =>
        simp only [List.map_cons] at h hf
        obtain ⟨s1, k1, k2, k3, _⟩ := h.destroyP hf
        have hidx : (C.s.acc.length + (List.replicate d (none : Option α)).length) % cfg.size.toNat = i := by
          have := mod_add (c := C.s.acc.length) (d := d) (n := cfg.size.toNat) (by simp at hst; omega) h.pos
          simp only [List.length_replicate]
          rw [this, if_pos (by simp at hst; omega)]; exact hi.symm
        rw [hidx] at k1
        refine key s1 k1 ?_
        rw [k1] at hs
        obtain ⟨rfl, -, -⟩ := tau_inv hs
        exact k3
    case rngStore total newW =>
      obtain ⟨vs, rfl, hb, k, hk, ht⟩ := hm
      obtain ⟨rfl, rfl, -⟩ := tau_inv hs
      refine ⟨hb.2, k, hk.ev0 he, by rw [ht]; simp [Nat.min_comm], ?_⟩
      show C.s.acc ++ total = _
      rw [hb.1, ht]
      congr 1
      simp only [List.length_take]
      rcases Nat.le_total (k + cfg.cap - s₁.acc.length) vs.length with h | h
      · rw [Nat.min_eq_left h]
      · rw [Nat.min_eq_right h, List.take_of_length_le h, List.take_of_length_le (Nat.le_refl _)]
    case wav1 =>
      simp only [Option.bind_eq_some_iff, Prod.exists] at hs
      obtain ⟨s1, w, h1, hs⟩ := hs
      obtain ⟨rfl, hw⟩ := h.loadWP h1
      obtain ⟨rfl, rfl, -⟩ := tau_inv hs
      exact hm
    case wav2 w =>
      obtain ⟨rfl, hb⟩ := hm
      obtain ⟨rfl, hw⟩ := hP
      simp only [Option.bind_eq_some_iff, Prod.exists] at hs
      obtain ⟨s1, r, h1, hs⟩ := hs
      obtain ⟨vv, rfl, h2, h3, h4, h5, h6, h7, h8, h9, h10⟩ := h.loadRP h1
      obtain ⟨rfl, rfl, -⟩ := tau_inv hs
      have hb' : baseP s₁ { C.s with vp := vv } := base he rfl hb
      have hacc : C.s.acc.length = s₁.acc.length := by rw [hb.1]
      have hav := writeAvail_exact (w := w) (d := C.s.acc.length - (C.s.R j).cnt) (by omega) h6
        (by rw [hw]; congr 1; omega)
      refine ⟨hb'.2, ⟨j, Nat.le_trans hb.2 h3, h5, ?_⟩, ?_, ?_, hb'.1⟩
      · show _ = (C.s.R j).cnt
        simp only [Cfg.cap]; omega
      · simp only [Cfg.cap]; omega
      · simp only [Cfg.cap]; omega
    case emp1 =>
      simp only [Option.bind_eq_some_iff, Prod.exists] at hs
      obtain ⟨s1, w, h1, hs⟩ := hs
      obtain ⟨rfl, hw⟩ := h.loadWP h1
      obtain ⟨rfl, rfl, -⟩ := tau_inv hs
      exact hm
    case emp2 w =>
      obtain ⟨rfl, hb⟩ := hm
      obtain ⟨rfl, hw⟩ := hP
      simp only [Option.bind_eq_some_iff, Prod.exists] at hs
      obtain ⟨s1, r, h1, hs⟩ := hs
      obtain ⟨vv, rfl, h2, h3, h4, h5, h6, h7, h8, h9, h10⟩ := h.loadRP h1
      obtain ⟨rfl, rfl, -⟩ := tau_inv hs
      have hb' : baseP s₁ { C.s with vp := vv } := base he rfl hb
      refine ⟨hb'.2, _, ⟨j, Nat.le_trans hb.2 h3, h5, rfl⟩, ?_, hb'.1⟩
      rw [← hb.1]
      show (w == r) = true ↔ C.s.acc.length = (C.s.R j).cnt
      exact index_eq_iff hw h6 (by omega) h8
    case emp3 r =>
      obtain ⟨rfl, hb, k, k1, k2, k3, k4⟩ := hm
      simp only [Option.bind_eq_some_iff, Prod.exists] at hs
      obtain ⟨s1, w, h1, hs⟩ := hs
      obtain ⟨rfl, hw⟩ := h.loadWP h1
      obtain ⟨rfl, rfl, -⟩ := tau_inv hs
      refine ⟨hb.2, k, k1, ?_, hb.1⟩
      rw [hb.1] at hw
      exact index_eq_iff hw k2 k3 k4
    case ret => simp at hs
    all_goals exact hP.elim

theorem call_ok {t : Nat} {o : Op α} {p' : PC α} {ch : Choice α}
    (hs : tstep cfg t s .idle ch = some (s', p', some (.inv t o))) : start t o = some p' ∧ s' = s ∧ ch = .call o := by
  cases ch <;> simp [tstep] at hs
  · obtain ⟨p1, h1, rfl, rfl, rfl⟩ := hs; exact ⟨h1, rfl, rfl⟩
  · split at hs <;> simp [tau] at hs

theorem producer_rule (s₁ : St α) (o : Op α) : CallRule (mach α cfg) okSafe 0 o (Inv cfg)
    (baseP s₁) (midP cfg s₁ o) (fun r s => s₁.vp.r ≤ s.vp.r ∧ producerPost cfg.cap s₁ s o r) where
  inv C t ch s' p' e hJ hs hok := hJ.step hs hok
  before C t' ch s' p' e hJ hs hok ht hB := by
    rcases hJ.tid hs with rfl | rfl
    · obtain ⟨h1, rfl⟩ := ht rfl
      have he := hJ.ev0 hs
      have h1 : C.pc 0 = .idle := h1
      have hs : tstep cfg 0 C.s (C.pc 0) ch = some (s', p', none) := hs
      rw [h1] at hs
      cases ch <;> simp [tstep, tau] at hs
      obtain ⟨rfl, rfl⟩ := hs
      exact ⟨hB.1, Nat.le_trans hB.2 he.vpr⟩
    · have he := hJ.ev1 hs
      exact ⟨by rw [he.acc]; exact hB.1, by rw [he.vp]; exact hB.2⟩
  call C ch s' p' hJ hs hok hB := by
    obtain ⟨h1, rfl, rfl⟩ := call_ok (cfg := cfg) hs
    cases o <;> simp [start] at h1 <;> subst h1 <;> exact ⟨rfl, hB⟩
  during C ch s' p' hJ hs hok hI := hJ.duringP hs hok hI
  others C t' ch s' p' e hJ hs hok ht hI := by
    rcases hJ.tid hs with rfl | rfl
    · exact absurd rfl ht
    · have he := hJ.ev1 hs
      obtain ⟨_, _, _, h, _⟩ := hJ
      exact hI.ev (fun k hk => hk.ev1 h.vpr he) he.acc (by rw [he.vp]; exact Nat.le_refl _)
  ret C ch s' p' r hJ hs hok hI := by
    have hs : tstep cfg 0 C.s (C.pc 0) ch = some (s', p', some (.res 0 r)) := hs
    rcases mach_lawful _ _ _ _ _ _ _ hs with ⟨_, o', h1⟩ | ⟨r', h1, h2, h3⟩
    · cases h1
    · cases h3
      have h1 : C.pc 0 = .ret r := h1
      rw [h1] at hs hI
      cases ch <;> simp [tstep, tau] at hs
      obtain ⟨rfl, -⟩ := hs
      exact hI
  after r C t' ch s' p' e hJ hs hok ht hB := by
    rcases hJ.tid hs with rfl | rfl
    · obtain ⟨h1, rfl⟩ := ht rfl
      have he := hJ.ev0 hs
      have h1 : C.pc 0 = .idle := h1
      have hs : tstep cfg 0 C.s (C.pc 0) ch = some (s', p', none) := hs
      rw [h1] at hs
      cases ch <;> simp [tstep, tau] at hs
      obtain ⟨rfl, rfl⟩ := hs
      exact ⟨Nat.le_trans hB.1 he.vpr, hB.2.ev (fun k hk => hk.ev0 he) rfl⟩
    · have he := hJ.ev1 hs
      obtain ⟨_, _, _, h, _⟩ := hJ
      exact ⟨by rw [he.vp]; exact hB.1, hB.2.ev (fun k hk => hk.ev1 h.vpr he) he.acc⟩

/-! ### The consumer's calls -/

theorem prefix_drop {l l' a : List α} {n : Nat} (hl : l <+: l') (h : a <+: l.drop n) : a <+: l'.drop n := by
  obtain ⟨t, rfl⟩ := hl
  rw [List.drop_append]
  exact h.trans (List.prefix_append _ _)

theorem prefix_get {l l' : List α} {n : Nat} {v : α} (hl : l <+: l') (h : l[n]? = some v) : l'[n]? = some v := by
  obtain ⟨t, rfl⟩ := hl
  have : n < l.length := by
    rcases Nat.lt_or_ge n l.length with h1 | h1
    · exact h1
    · rw [List.getElem?_eq_none h1] at h; simp at h
  rw [List.getElem?_append_left this]; exact h

theorem get_of_prefix {l : List α} {n : Nat} {v : α} (h : [v] <+: l.drop n) : l[n]? = some v := by
  obtain ⟨t, ht⟩ := h
  have := congrArg (·[0]?) ht
  simp at this
  exact this.symm

theorem Untaken.ev (h : Untaken s₁ s) (hr : s'.rel = s.rel) (ho : s'.out = s.out) : Untaken s₁ s' :=
  ⟨hr.trans h.1, ho.trans h.2⟩

theorem consumerPost.ev {o : Op α} {r : Ret α} (h : consumerPost s₁ s o r)
    (hs : ∀ k, SeenAccepted s₁ s k → SeenAccepted s₁ s' k) (ha : s.acc <+: s'.acc) (hr : s'.rel = s.rel)
    (ho : s'.out = s.out) (hk : KnowsNonempty s → KnowsNonempty s') : consumerPost s₁ s' o r := by
  unfold consumerPost at h ⊢
  split at h
  · exact ⟨hs _ h.1, h.2.ev hr ho⟩
  · obtain ⟨⟨k, h1, h2⟩, h3, h4, h5⟩ := h
    exact ⟨⟨k, hs _ h1, h2⟩, prefix_get ha h3, hr.trans h4, ho.trans h5⟩
  · obtain ⟨k, h1, h2, h3, h4, h5, h6⟩ := h
    exact ⟨k, hs _ h1, h2, h3, prefix_drop ha h4, hr.trans h5, ho.trans h6⟩
  · exact ⟨hs _ h.1, fun hn => hk (h.2.1 hn), h.2.2.ev hr ho⟩
  · obtain ⟨k, h1, h2, h3⟩ := h
    exact ⟨k, hs _ h1, h2, h3.ev hr ho⟩
  · obtain ⟨⟨k, h1, h2⟩, h3, h4⟩ := h
    exact ⟨⟨k, hs _ h1, h2⟩, prefix_get ha h3, h4.ev hr ho⟩
  · exact ⟨hs _ h.1, h.2.ev hr ho⟩
  · exact Untaken.ev h hr ho
  · exact Untaken.ev h hr ho
  · exact h

/-- A value of `write_index_` loaded since `s₁`. -/
def LoadedW (cfg : Cfg) (acq : Bool) (s₁ s : St α) (w : SizeT) : Prop :=
  ∃ j, s₁.vc.w ≤ j ∧ j ≤ s.vc.w ∧ w.toNat = (s.W j).cnt % cfg.size.toNat ∧ s.rel ≤ (s.W j).cnt ∧
    (acq = true → (s.W j).view.p ≤ s.vc.p)

/-- The consumer's call `o` that began in `s₁`, at each program counter. -/
def midC (cfg : Cfg) (s₁ : St α) (o : Op α) (s : St α) (p : PC α) : Prop :=
  s₁.vc.w ≤ s.vc.w ∧ match p with
  | .one1 => o = .pop ∧ Untaken s₁ s
  | .one2 w => o = .pop ∧ Untaken s₁ s ∧ LoadedW cfg true s₁ s w
  | .one3 _ => o = .pop ∧ Untaken s₁ s ∧ ∃ k, SeenAccepted s₁ s k ∧ s₁.rel < k
  | .one4 v _ | .one5 v _ => o = .pop ∧ s.rel = s₁.rel ∧ s.out = s₁.out ++ [v] ∧
      ∃ k, SeenAccepted s₁ s k ∧ s₁.rel < k
  | .bulk1 copy lim => o = .popMany copy lim ∧ Untaken s₁ s
  | .bulk2 copy lim w => o = .popMany copy lim ∧ Untaken s₁ s ∧ LoadedW cfg true s₁ s w
  | .bulkRead copy _ rem rest outs _ => ∃ lim, o = .popMany copy lim ∧ s.rel = s₁.rel ∧ s.out = s₁.out ++ outs ∧
      ∃ k, SeenAccepted s₁ s k ∧ s₁.rel ≤ k ∧ outs.length + rem + rest = atMost lim (k - s₁.rel)
  | .bulkDestroy copy _ rem rest outs _ => ∃ lim, o = .popMany copy lim ∧ s.rel = s₁.rel ∧ s.out = s₁.out ++ outs ∧
      ∃ k, SeenAccepted s₁ s k ∧ s₁.rel ≤ k ∧ outs.length + (rem - 1) + rest = atMost lim (k - s₁.rel)
  | .bulkStore outs _ => ∃ copy lim, o = .popMany copy lim ∧ s.rel = s₁.rel ∧ s.out = s₁.out ++ outs ∧
      ∃ k, SeenAccepted s₁ s k ∧ s₁.rel ≤ k ∧ outs.length = atMost lim (k - s₁.rel)
  | .rav1 => o = .readAvail ∧ Untaken s₁ s
  | .rav2 w => o = .readAvail ∧ Untaken s₁ s ∧ LoadedW cfg true s₁ s w
  | .emp1 => o = .isEmpty ∧ Untaken s₁ s
  | .emp2 w => o = .isEmpty ∧ Untaken s₁ s ∧ LoadedW cfg false s₁ s w
  | .emp3 _ => o = .isEmpty ∧ Untaken s₁ s
  | .frt1 => o = .front true ∧ Untaken s₁ s
  | .frt2 w => o = .front true ∧ Untaken s₁ s ∧ LoadedW cfg true s₁ s w
  | .frt3 | .frt4 _ => (∃ b, o = .front b) ∧ Untaken s₁ s
  | .ret r => consumerPost s₁ s o r
  | _ => False

theorem midC.ev {o : Op α} {p : PC α} (h : midC cfg s₁ o s p)
    (hs : ∀ k, SeenAccepted s₁ s k → SeenAccepted s₁ s' k)
    (hl : ∀ b w, LoadedW cfg b s₁ s w → LoadedW cfg b s₁ s' w) (ha : s.acc <+: s'.acc) (hr : s'.rel = s.rel)
    (ho : s'.out = s.out) (hv : s.vc.w ≤ s'.vc.w) (hk : KnowsNonempty s → KnowsNonempty s') :
    midC cfg s₁ o s' p := by
  refine ⟨Nat.le_trans h.1 hv, ?_⟩
  have h := h.2
  cases p <;> simp only at h ⊢
  case one1 | bulk1 | rav1 | emp1 | emp3 | frt1 | frt3 | frt4 => exact ⟨h.1, h.2.ev hr ho⟩
  case one2 | bulk2 | rav2 | emp2 | frt2 => exact ⟨h.1, h.2.1.ev hr ho, hl _ _ h.2.2⟩
  case one3 => obtain ⟨h1, h2, k, h3, h4⟩ := h; exact ⟨h1, h2.ev hr ho, k, hs _ h3, h4⟩
  case one4 | one5 => obtain ⟨h1, h2, h3, k, h4, h5⟩ := h; exact ⟨h1, hr.trans h2, ho.trans h3, k, hs _ h4, h5⟩
  case bulkRead | bulkDestroy =>
    obtain ⟨lim, h1, h2, h3, k, h4, h5⟩ := h; exact ⟨lim, h1, hr.trans h2, ho.trans h3, k, hs _ h4, h5⟩
  case bulkStore =>
    obtain ⟨c, lim, h1, h2, h3, k, h4, h5⟩ := h; exact ⟨c, lim, h1, hr.trans h2, ho.trans h3, k, hs _ h4, h5⟩
  case ret => exact h.ev hs ha hr ho hk

theorem KnowsNonempty.ev0 (h : KnowsNonempty s) (hv : s.vc.w ≤ s.wlast) (he : Ev0 s s') : KnowsNonempty s' := by
  obtain ⟨k, h1, h2, h3⟩ := h
  have := he.W k (by omega)
  exact ⟨k, by rw [he.vc]; exact h1, by rw [this, he.R, he.rlast]; exact h2, by rw [this, he.vc]; exact h3⟩

theorem KnowsNonempty.ev1 (h : KnowsNonempty s) (hr : s'.rel = s.rel) (he : Ev1 s s') : KnowsNonempty s' := by
  obtain ⟨k, h1, h2, h3⟩ := h
  have hr : (s'.R s'.rlast).cnt = (s.R s.rlast).cnt := hr
  exact ⟨k, Nat.le_trans h1 he.vcw, by rw [he.W, hr]; exact h2, by rw [he.W]; exact Nat.le_trans h3 he.vcp⟩

theorem LoadedW.ev0 {b w} (h : LoadedW cfg b s₁ s w) (hv : s.vc.w ≤ s.wlast) (he : Ev0 s s') :
    LoadedW cfg b s₁ s' w := by
  obtain ⟨j, h1, h2, h3, h4, h5⟩ := h
  have := he.W j (by omega)
  exact ⟨j, h1, by rw [he.vc]; exact h2, by rw [this]; exact h3, by rw [this, he.rel]; exact h4,
    by rw [this, he.vc]; exact h5⟩

theorem LoadedW.ev1 {b w} (h : LoadedW cfg b s₁ s w) (hr : s'.rel = s.rel) (he : Ev1 s s') :
    LoadedW cfg b s₁ s' w := by
  obtain ⟨j, h1, h2, h3, h4, h5⟩ := h
  exact ⟨j, h1, Nat.le_trans h2 he.vcw, by rw [he.W]; exact h3, by rw [he.W, hr]; exact h4,
    fun hb => by rw [he.W]; exact Nat.le_trans (h5 hb) he.vcp⟩

theorem midC.bulkNext {copy : Bool} {lim : Option Nat} {i rem rest : Nat} {outs : List α} {newR : SizeT}
    (h0 : s₁.vc.w ≤ s.vc.w) (h : s.rel = s₁.rel ∧ s.out = s₁.out ++ outs ∧
      ∃ k, SeenAccepted s₁ s k ∧ s₁.rel ≤ k ∧ outs.length + rem + rest = atMost lim (k - s₁.rel)) :
    midC cfg s₁ (.popMany copy lim) s (bulkNext copy i rem rest outs newR) := by
  obtain ⟨h1, h2, k, h3, h4, h5⟩ := h
  unfold Spsc.bulkNext
  by_cases hr : rem = 0
  · subst hr
    rw [if_pos rfl]
    by_cases hr : rest = 0
    · subst hr
      rw [if_pos rfl]
      exact ⟨h0, copy, lim, rfl, h1, h2, k, h3, h4, h5⟩
    · rw [if_neg hr]
      exact ⟨h0, lim, rfl, h1, h2, k, h3, h4, by omega⟩
  · rw [if_neg hr]
    exact ⟨h0, lim, rfl, h1, h2, k, h3, h4, h5⟩

theorem bulkPlan_shape (cfg : Cfg) (copy : Bool) (lim : Option Nat) (w r : SizeT) :
    (∃ x, bulkPlan cfg copy lim w r = (.ret x : PC α)) ∨
    (∃ i rem rest newR, bulkPlan cfg copy lim w r = (.bulkRead copy i rem rest [] newR : PC α)) ∨
    ∃ newR, bulkPlan cfg copy lim w r = (.bulkStore [] newR : PC α) := by
  have key : ∀ {i rem rest : Nat} {newR : SizeT},
      (∃ i' rem' rest', bulkNext copy i rem rest [] newR = (.bulkRead copy i' rem' rest' [] newR : PC α)) ∨
        bulkNext copy i rem rest [] newR = (.bulkStore [] newR : PC α) := by
    intro i rem rest newR
    unfold bulkNext
    split
    · split
      · exact .inr rfl
      · exact .inl ⟨_, _, _, rfl⟩
    · exact .inl ⟨_, _, _, rfl⟩
  have key2 : ∀ {i rem rest : Nat} {newR : SizeT},
      (∃ x, (bulkNext copy i rem rest [] newR) = (.ret x : PC α)) ∨
      (∃ i' rem' rest' newR', bulkNext copy i rem rest [] newR = (.bulkRead copy i' rem' rest' [] newR' : PC α)) ∨
        ∃ newR', bulkNext copy i rem rest [] newR = (.bulkStore [] newR' : PC α) := by
    intro i rem rest newR
    rcases key (i := i) (rem := rem) (rest := rest) (newR := newR) with ⟨a, b, c, h⟩ | h
    · exact .inr (.inl ⟨a, b, c, _, h⟩)
    · exact .inr (.inr ⟨_, h⟩)
  unfold bulkPlan
  simp only []
  split
  · exact .inl ⟨_, rfl⟩
  · split
    · exact key2
    · exact key2

theorem Inv.duringC (hi : Inv cfg C) {o : Op α} {ch : Choice α} {s' p'}
    (hs : tstep cfg 1 C.s (C.pc 1) ch = some (s', p', none)) (hok : okSafe C.s (C.pc 1) ch)
    (hm : midC cfg s₁ o C.s (C.pc 1)) : midC cfg s₁ o s' p' := by
  have he := hi.ev1 hs
  obtain ⟨pre, gone, handed, h, hP, hC, hI⟩ := hi
  generalize hp : C.pc 1 = p at hs hC hok hm
  have hpos := h.pos
  have hhl := h.hl
  have hroom := h.room
  have hseen : ∀ {s'}, Ev1 C.s s' → ∀ k (_ : SeenAccepted s₁ C.s k), SeenAccepted s₁ s' k := fun he k hk => hk.ev1 he
  have stay : ∀ {s'}, Ev1 C.s s' → s'.rel = C.s.rel → s'.out = C.s.out → ∀ q, midC cfg s₁ o C.s q →
      midC cfg s₁ o s' q := fun he hr ho q hq =>
    hq.ev (hseen he) (fun b w hl => hl.ev1 hr he) (by rw [he.acc]; exact List.prefix_refl _) hr ho he.vcw
      (fun hk => hk.ev1 hr he)
  have hle := hm.1
  cases ch with
  | call o => cases p <;> simp [tstep] at hs
  | sync =>
    obtain ⟨rfl, rfl, -⟩ := tau_inv hs
    exact stay he rfl rfl _ hm
  | swap j =>
    cases p <;> simp only [tstep, reduceCtorEq] at hs
    simp only [Option.bind_eq_some_iff, Prod.exists] at hs
    obtain ⟨s1, r, h1, hs⟩ := hs
    obtain ⟨rfl, hr⟩ := h.loadRC h1
    obtain ⟨rfl, rfl, -⟩ := tau_inv hs
    exact hm
  | throw =>
    cases p <;> simp only [tstep, reduceCtorEq] at hs
    case one3 =>
      obtain ⟨rfl, h1, _⟩ := hm.2
      split at hs
      · rename_i hx
        obtain ⟨rfl, rfl, hr, hh⟩ := hC
        obtain ⟨s1, v, h1, h2, h3, h4⟩ := h.readC hh
        rw [Nat.add_zero, ← hr] at h1
        rw [h1] at hx; cases hx
      · rename_i hx
        obtain ⟨rfl, rfl, -⟩ := tau_inv hs
        have h2 := readC_ev hx
        exact ⟨Nat.le_trans hle he.vcw, h1.ev h2.2.1 h2.2.2⟩
    case bulkRead copy i rem rest outs newR =>
      have hok : outs = [] := hok
      subst hok
      obtain ⟨lim, rfl, h1, h1', _⟩ := hm.2
      split at hs
      · rename_i hx
        obtain ⟨rfl, rfl, hrem, hb, ho⟩ := hC
        obtain ⟨s1, v, h1, h2, h3, h4⟩ := h.readC (hb.hav.mono (by omega))
        rw [← (hb.pos hrem).1] at h1
        rw [h1] at hx; cases hx
      · rename_i hx
        obtain ⟨rfl, rfl, -⟩ := tau_inv hs
        have h2 := readC_ev hx
        exact ⟨Nat.le_trans hle he.vcw, Untaken.ev ⟨h1, by simpa using h1'⟩ h2.2.1 h2.2.2⟩
    all_goals exact hC.elim
  | go j =>
    have lw : ∀ {b w s1}, C.s.loadWC b j = some (s1, w) → LoadedW cfg b s₁ s1 w := by
      intro b w s1 h1
      obtain ⟨vv, rfl, h2, h3, h4, h5, h6, h7, h8, h9, h10⟩ := h.loadWC h1
      exact ⟨j, Nat.le_trans hle h3, h5, h6, h7, h9⟩
    have eqv : ∀ {b w r}, LoadedW cfg b s₁ C.s w → Untaken s₁ C.s → r.toNat = C.s.rel % cfg.size.toNat →
        ∃ k, SeenAccepted s₁ C.s k ∧ s₁.rel ≤ k ∧ k < s₁.rel + cfg.size.toNat ∧ w.toNat = k % cfg.size.toNat ∧
          r.toNat = s₁.rel % cfg.size.toNat ∧ ((w == r) = true ↔ k = s₁.rel) := by
      rintro b w r ⟨i, h1, h2, h3, h4, h5⟩ hu hr
      have hw := h.cnt_le (k := i) (Nat.le_trans h2 h.vcw)
      have hu1 := hu.1
      rw [hu1] at hr
      exact ⟨_, ⟨i, h1, h2, rfl⟩, by omega, by omega, h3, hr, index_eq_iff h3 hr (by omega) (by omega)⟩
    cases p <;> simp only [tstep] at hs
    case idle => simp at hs
    case one1 | bulk1 | rav1 | emp1 | frt1 =>
      simp only [Option.bind_eq_some_iff, Prod.exists] at hs
      obtain ⟨s1, w, h1, hs⟩ := hs
      obtain ⟨rfl, rfl, -⟩ := tau_inv hs
      obtain ⟨h2, h3⟩ := hm.2
      have h4 := loadWC_ev h1
      exact ⟨Nat.le_trans hle he.vcw, h2, h3.ev h4.2.1 h4.2.2, lw h1⟩
    case one2 w =>
      simp only [Option.bind_eq_some_iff, Prod.exists] at hs
      obtain ⟨s1, r, h1, hs⟩ := hs
      obtain ⟨rfl, hr⟩ := h.loadRC h1
      obtain ⟨rfl, rfl, -⟩ := tau_inv hs
      obtain ⟨rfl, h2, h3⟩ := hm.2
      obtain ⟨k, k1, k2, k3, k4, k5, k6⟩ := eqv h3 h2 hr
      split
      · rename_i heq
        subst heq
        have := k6.1 (by simp)
        exact ⟨hle, this ▸ k1, h2⟩
      · rename_i hne
        have hkne : k ≠ s₁.rel := fun h => hne (by simpa using k6.2 h)
        exact ⟨hle, rfl, h2, k, k1, by omega⟩
    case one3 r =>
      obtain ⟨rfl, rfl, hr, hh⟩ := hC
      obtain ⟨s1, v, h1, h2, h3, h4⟩ := h.readC hh
      rw [Nat.add_zero, ← hr] at h1
      simp only [h1] at hs
      obtain ⟨rfl, rfl, -⟩ := tau_inv hs
      obtain ⟨rfl, h5, k, h6, h7⟩ := hm.2
      have h8 := readC_ev h1
      exact ⟨Nat.le_trans hle he.vcw, rfl, h8.2.1.trans h5.1, by show s1.out ++ [v] = _; rw [h8.2.2, h5.2],
        k, hseen he _ h6, h7⟩
    case one4 v r =>
      obtain ⟨rfl, rfl, hr, hh, ho⟩ := hC
      obtain ⟨s1, h1, _⟩ := h.destroyC hh (by omega)
      rw [Nat.add_zero, ← hr] at h1
      simp only [h1, orErr] at hs
      obtain ⟨rfl, rfl, -⟩ := tau_inv hs
      have h8 := destroyC_ev h1
      exact stay he h8.2.1 h8.2.2 (.one5 v r) hm
    case one5 v r =>
      obtain ⟨rfl, rfl, hr, ho⟩ := hC
      obtain ⟨nx, hn1, _⟩ := nextIndex_exact (arg := r) (max := cfg.size)
        (by rw [hr]; exact Nat.mod_lt _ h.pos)
      rw [hn1] at hs
      obtain ⟨rfl, rfl, -⟩ := tau_inv hs
      obtain ⟨rfl, h5, h6, k, h7, h8⟩ := hm.2
      refine ⟨hle, ⟨k, hseen he _ h7, h8⟩, ?_, ?_, h6⟩
      · rw [← h5]; exact get_of_prefix ho
      · rw [← h5]; show (upd _ _ _ _ : Msg).cnt = _; rw [show (C.s.storeR nx 1).rlast = C.s.rlast + 1 from rfl, upd_self]; rfl
    case bulk2 copy lim w =>
      obtain ⟨rfl, rfl, -⟩ := hC
      simp only [Option.bind_eq_some_iff, Prod.exists] at hs
      obtain ⟨s1, r, h1, hs⟩ := hs
      obtain ⟨rfl, hr⟩ := h.loadRC h1
      obtain ⟨rfl, rfl, -⟩ := tau_inv hs
      obtain ⟨rfl, h2, i, i1, i2, i3, i4, i5⟩ := hm.2
      obtain ⟨-, g1, g2, g3⟩ := bulkPlan_local (copy := copy) (lim := lim) h hr i2 i3 i4 (i5 rfl)
      have hsn : SeenAccepted s₁ C.s (C.s.W i).cnt := ⟨i, i1, i2, rfl⟩
      have hu1 := h2.1
      rcases bulkPlan_shape (α := α) cfg copy lim w r with ⟨x, hx⟩ | ⟨i', rem, rest, nR, hx⟩ | ⟨nR, hx⟩
      · obtain ⟨rfl, h3⟩ := g1 x hx
        rw [hx]
        refine ⟨hle, _, hsn, by omega, ?_, by simp, ?_, by simpa using h2.2⟩
        · rw [show (C.s.W i).cnt - s₁.rel = 0 by omega]; cases lim <;> simp [atMost]
        · simpa using h2.1
      · obtain ⟨-, -, h3⟩ := g2 _ _ _ _ _ _ hx
        rw [hx]
        exact ⟨hle, lim, rfl, h2.1, by simpa using h2.2, _, hsn, by omega, by rw [← hu1]; simpa using h3⟩
      · obtain ⟨-, rfl⟩ := g3 _ _ hx
        rw [hx]
        exact ⟨hle, copy, _, rfl, h2.1, by simpa using h2.2, _, hsn, by omega, by simp [atMost]⟩
    case bulkRead copy i rem rest outs newR =>
      obtain ⟨rfl, rfl, hrem, hb, ho⟩ := hC
      have hh : Have C.s (outs.length + 1) := hb.hav.mono (by omega)
      obtain ⟨s1, v, h1, h2, h3, h4⟩ := h.readC hh
      rw [← (hb.pos hrem).1] at h1
      simp only [h1] at hs
      obtain ⟨rfl, rfl, -⟩ := tau_inv hs
      obtain ⟨lim, rfl, h5, h6, k, h7, h8, h9⟩ := hm.2
      have h10 := readC_ev h1
      have e1 : ({ s1 with out := s1.out ++ [v] } : St α).rel = s₁.rel := h10.2.1.trans h5
      have e2 : ({ s1 with out := s1.out ++ [v] } : St α).out = s₁.out ++ (outs ++ [v]) := by
        show s1.out ++ [v] = _; rw [h10.2.2, h6]; simp
      split
      · refine midC.bulkNext (Nat.le_trans hle he.vcw) ⟨e1, e2, k, hseen he _ h7, h8, ?_⟩
        simp; omega
      · refine ⟨Nat.le_trans hle he.vcw, lim, rfl, e1, e2, k, hseen he _ h7, h8, ?_⟩
        simp; omega
    case bulkDestroy copy i rem rest outs newR =>
      obtain ⟨hg, rfl, hrem, hb, ho⟩ := hC
      obtain ⟨s1, h1, _⟩ := h.destroyC (hb.hav.mono (by omega)) (by omega)
      rw [← (hb.pos hrem).1] at h1
      simp only [h1, orErr] at hs
      obtain ⟨rfl, rfl, -⟩ := tau_inv hs
      obtain ⟨lim, rfl, h5, h6, k, h7, h8, h9⟩ := hm.2
      have h10 := destroyC_ev h1
      exact midC.bulkNext (Nat.le_trans hle he.vcw) ⟨h10.2.1.trans h5, h10.2.2.trans h6, k, hseen he _ h7, h8, h9⟩
    case bulkStore outs newR =>
      obtain ⟨rfl, rfl, hn, ho⟩ := hC
      obtain ⟨rfl, rfl, -⟩ := tau_inv hs
      obtain ⟨c, lim, rfl, h5, h6, k, h7, h8, h9⟩ := hm.2
      refine ⟨hle, k, hseen he _ h7, h8, h9, by rw [← h5]; exact ho, ?_, h6⟩
      rw [← h5]; show (upd _ _ _ _ : Msg).cnt = _
      rw [show (C.s.storeR newR outs.length).rlast = C.s.rlast + 1 from rfl, upd_self]; rfl
    case rav2 w =>
      simp only [Option.bind_eq_some_iff, Prod.exists] at hs
      obtain ⟨s1, r, h1, hs⟩ := hs
      obtain ⟨rfl, hr⟩ := h.loadRC h1
      obtain ⟨rfl, rfl, -⟩ := tau_inv hs
      obtain ⟨rfl, h2, h3⟩ := hm.2
      obtain ⟨k, k1, k2, k3, k4, k5, k6⟩ := eqv h3 h2 hr
      have hav := readAvail_exact (w := w) (r := r) (c := s₁.rel) (d := k - s₁.rel) (max := cfg.size) (by omega) k5
        (by rw [k4]; congr 1; omega)
      refine ⟨hle, ?_, fun hn => ?_, h2⟩
      · rw [hav, show s₁.rel + (k - s₁.rel) = k by omega]; exact k1
      · obtain ⟨i, i1, i2, i3, i4, i5⟩ := h3
        refine ⟨i, i2, ?_, i5 rfl⟩
        have hu1 := h2.1
        have hw := h.cnt_le (k := i) (Nat.le_trans i2 h.vcw)
        have hav' := readAvail_exact (w := w) (r := r) (c := s₁.rel) (d := (C.s.W i).cnt - s₁.rel) (max := cfg.size)
          (by omega) k5 (by rw [i3]; congr 1; omega)
        have hu2 : (C.s.R C.s.rlast).cnt = s₁.rel := hu1
        omega
    case emp2 w =>
      simp only [Option.bind_eq_some_iff, Prod.exists] at hs
      obtain ⟨s1, r, h1, hs⟩ := hs
      obtain ⟨rfl, hr⟩ := h.loadRC h1
      obtain ⟨rfl, rfl, -⟩ := tau_inv hs
      obtain ⟨rfl, h2, h3⟩ := hm.2
      obtain ⟨k, k1, k2, k3, k4, k5, k6⟩ := eqv h3 h2 hr
      exact ⟨hle, k, k1, k6, h2⟩
    case emp3 r =>
      simp only [Option.bind_eq_some_iff, Prod.exists] at hs
      obtain ⟨s1, w, h1, hs⟩ := hs
      obtain ⟨rfl, rfl, -⟩ := tau_inv hs
      obtain ⟨rfl, h2⟩ := hm.2
      obtain ⟨vv, rfl, h5, g3, g4, g5, g6, g7, g8, g9, g10⟩ := h.loadWC h1
      have hw := h.cnt_le (k := j) g4
      have hu1 := h2.1
      have hr := hC.2.2
      rw [hu1] at hr
      exact ⟨Nat.le_trans hle he.vcw, _, ⟨j, Nat.le_trans hle g3, g5, rfl⟩, index_eq_iff g6 hr
        (by have : C.s.rel ≤ (C.s.W j).cnt := g7; show s₁.rel ≤ (C.s.W j).cnt; omega) (by show (C.s.W j).cnt < _; omega), h2⟩
    case frt2 w =>
      simp only [Option.bind_eq_some_iff, Prod.exists] at hs
      obtain ⟨s1, r, h1, hs⟩ := hs
      obtain ⟨rfl, hr⟩ := h.loadRC h1
      obtain ⟨rfl, rfl, -⟩ := tau_inv hs
      obtain ⟨rfl, h2, h3⟩ := hm.2
      obtain ⟨k, k1, k2, k3, k4, k5, k6⟩ := eqv h3 h2 hr
      have hav := readAvail_exact (w := w) (r := r) (c := s₁.rel) (d := k - s₁.rel) (max := cfg.size) (by omega) k5
        (by rw [k4]; congr 1; omega)
      split
      · rename_i h0
        rw [h0] at hav
        have hav : 0 = k - s₁.rel := hav
        exact ⟨hle, (show k = s₁.rel by omega) ▸ k1, h2⟩
      · exact ⟨hle, ⟨true, rfl⟩, h2⟩
    case frt3 =>
      simp only [Option.bind_eq_some_iff, Prod.exists] at hs
      obtain ⟨s1, r, h1, hs⟩ := hs
      obtain ⟨rfl, hr⟩ := h.loadRC h1
      obtain ⟨rfl, rfl, -⟩ := tau_inv hs
      exact hm
    case frt4 r =>
      obtain ⟨rfl, rfl, hr, hh⟩ := hC
      obtain ⟨s1, v, h1, h2, h3, h4⟩ := h.readC hh
      rw [Nat.add_zero, ← hr] at h1
      simp only [h1] at hs
      obtain ⟨rfl, rfl, -⟩ := tau_inv hs
      obtain ⟨⟨b, rfl⟩, h5⟩ := hm.2
      have h10 := readC_ev h1
      refine ⟨Nat.le_trans hle he.vcw, ?_⟩
      have : consumerPost s₁ s' (.front b) (.front v) :=
        ⟨⟨_, hseen he _ ⟨C.s.vc.w, hle, Nat.le_refl _, rfl⟩, by have := h.have_le' hh; have := h5.1; omega⟩,
          by rw [h10.1.acc, ← h5.1]; simpa using h3, h5.ev h10.2.1 h10.2.2⟩
      exact this
    case ret => simp at hs
    all_goals exact hC.elim

theorem consumer_rule (s₁ : St α) (o : Op α) : CallRule (mach α cfg) okSafe 1 o (Inv cfg)
    (fun s => s₁.vc.w ≤ s.vc.w ∧ Untaken s₁ s) (midC cfg s₁ o)
    (fun r s => s₁.vc.w ≤ s.vc.w ∧ consumerPost s₁ s o r) where
  inv C t ch s' p' e hJ hs hok := hJ.step hs hok
  before C t' ch s' p' e hJ hs hok ht hB := by
    rcases hJ.tid hs with rfl | rfl
    · have he := hJ.ev0 hs
      exact ⟨by rw [he.vc]; exact hB.1, hB.2.ev he.rel he.out⟩
    · obtain ⟨h1, rfl⟩ := ht rfl
      have he := hJ.ev1 hs
      have h1 : C.pc 1 = .idle := h1
      have hs : tstep cfg 1 C.s (C.pc 1) ch = some (s', p', none) := hs
      rw [h1] at hs
      cases ch <;> simp [tstep, tau] at hs
      obtain ⟨rfl, rfl⟩ := hs
      exact ⟨Nat.le_trans hB.1 he.vcw, hB.2.ev rfl rfl⟩
  call C ch s' p' hJ hs hok hB := by
    obtain ⟨h1, rfl, rfl⟩ := call_ok (cfg := cfg) hs
    cases o <;> simp [start] at h1 <;> try subst h1
    case front b => cases b <;> exact ⟨hB.1, by simpa using hB.2⟩
    all_goals exact ⟨hB.1, rfl, hB.2⟩
  during C ch s' p' hJ hs hok hI := hJ.duringC hs hok hI
  others C t' ch s' p' e hJ hs hok ht hI := by
    rcases hJ.tid hs with rfl | rfl
    · have he := hJ.ev0 hs
      obtain ⟨_, _, _, h, _⟩ := hJ
      exact hI.ev (fun k hk => hk.ev0 h.vcw he) (fun b w hl => hl.ev0 h.vcw he) he.acc he.rel he.out
        (by rw [he.vc]; exact Nat.le_refl _) (fun hk => hk.ev0 h.vcw he)
    · exact absurd rfl ht
  ret C ch s' p' r hJ hs hok hI := by
    have hs : tstep cfg 1 C.s (C.pc 1) ch = some (s', p', some (.res 1 r)) := hs
    rcases mach_lawful _ _ _ _ _ _ _ hs with ⟨_, o', h1⟩ | ⟨r', h1, h2, h3⟩
    · cases h1
    · cases h3
      have h1 : C.pc 1 = .ret r := h1
      rw [h1] at hs hI
      cases ch <;> simp [tstep, tau] at hs
      obtain ⟨rfl, -⟩ := hs
      exact hI
  after r C t' ch s' p' e hJ hs hok ht hB := by
    rcases hJ.tid hs with rfl | rfl
    · have he := hJ.ev0 hs
      obtain ⟨_, _, _, h, _⟩ := hJ
      exact ⟨by rw [he.vc]; exact hB.1, hB.2.ev (fun k hk => hk.ev0 h.vcw he) he.acc he.rel he.out
        (fun hk => hk.ev0 h.vcw he)⟩
    · obtain ⟨h1, rfl⟩ := ht rfl
      have he := hJ.ev1 hs
      have h1 : C.pc 1 = .idle := h1
      have hs : tstep cfg 1 C.s (C.pc 1) ch = some (s', p', none) := hs
      rw [h1] at hs
      cases ch <;> simp [tstep, tau] at hs
      obtain ⟨rfl, rfl⟩ := hs
      exact ⟨Nat.le_trans hB.1 he.vcw, hB.2.ev (fun k hk => hk.ev1 he) (List.prefix_refl _) rfl rfl
        (fun hk => hk.ev1 rfl he)⟩

end Verif.Spsc
