import Verif.Spsc.Props

/-!
# `spsc_queue` is wait-free (C10)

Steps are those of the model: one access of an index or of an element each, plus invocation and response.
-/

namespace Verif.Spsc
open Lin

variable {α : Type} {cfg : Cfg} {N : Nat} {C C₁ : Conf α} {h h' : History (Op α) (Ret α)}

/-- Every step of thread `t` counts one, synchronisation outside the queue excepted. -/
def ownSteps (t : Nat) (t' : Nat) : Choice α → Nat
  | .sync => 0
  | _ => if t' = t then 1 else 0

/-- The number of steps a call with this result takes at most. -/
def stepsOf (N : Nat) : Op α → Ret α → Nat
  | .push _, _ => 6
  | .pushMany vs, .threw => 2 * min vs.length N + 5
  | .pushMany _, .pushedMany k => k + 5
  | .pop, _ => 7
  | .popMany _ _, .poppedMany vs => 2 * vs.length + 5
  | .popMany _ _, _ => 5
  | .front _, _ => 6
  | _, _ => 4

/-- The number of steps a call takes at most, whatever its result. -/
def maxSteps (N : Nat) : Op α → Nat
  | .push _ => 6
  | .pushMany vs => 2 * min vs.length N + 5
  | .pop => 7
  | .popMany _ lim => 2 * atMost lim N + 5
  | .front _ => 6
  | _ => 4

/-! ### Producer -/

def spentP (N : Nat) (o : Op α) : PC α → Nat → Prop
  | .push1 _, n | .rng1 _, n | .wav1, n | .emp1, n => n ≤ 1
  | .push2 _ _ _, n | .rng2 _ _, n | .wav2 _, n | .emp2 _, n | .emp3 _, n => n ≤ 2
  | .push3 _ _ _, n => n ≤ 3
  | .push4 _ _, n => n ≤ 4
  | .rngCopy start dst xs rest _ total _, n => n + xs.length + rest.length ≤ 3 + total.length ∧
      dst - start + xs.length + rest.length ≤ total.length
  | .rngUnwind i stop, n => n + (stop - i) + 1 ≤ maxSteps N o
  | .rngStore total _, n => n ≤ 3 + total.length
  | .ret r, n => n + 1 ≤ stepsOf N o r ∧ n + 1 ≤ maxSteps N o
  | _, _ => False

theorem spentP.rngNext {o : Op α} {start dst : Nat} {xs rest : List α} {second : Bool} {total : List α} {newW : SizeT}
    {n : Nat} (h : n + xs.length + rest.length ≤ 3 + total.length)
    (h' : dst - start + xs.length + rest.length ≤ total.length) :
    spentP N o (rngNext start dst xs rest second total newW) n := by
  unfold Spsc.rngNext
  split
  · rename_i h1
    subst h1
    split
    · rename_i h2; subst h2; simp only [spentP]; simp at h; omega
    · simp only [spentP]; simp at h h' ⊢; omega
  · exact ⟨h, h'⟩

theorem Inv.total_le (hi : Inv cfg C) (hN : Holds cfg N) {s₁ : St α} {vs total : List α} (hb : baseP s₁ C.s) {k}
    (hk : SeenReleased s₁ C.s k) (ht : total = vs.take (k + cfg.cap - s₁.acc.length)) :
    total.length ≤ min vs.length N := by
  obtain ⟨_, _, _, h, -⟩ := hi
  obtain ⟨j, h1, h2, rfl⟩ := hk
  have h3 := h.rel_le (Nat.le_trans h2 h.vpr)
  have h4 := h.hl
  have h5 := hN.cap
  rw [ht, ← hb.1]
  simp
  omega

theorem spentP_step (hN : Holds cfg N) (hi : Inv cfg C) {s₁ : St α} {o : Op α} {ch : Choice α} {s' p' n}
    (hs : tstep cfg 0 C.s (C.pc 0) ch = some (s', p', none)) (hok : okSafe C.s (C.pc 0) ch)
    (hm : midP cfg s₁ o C.s (C.pc 0)) (hK : spentP N o (C.pc 0) n) : spentP N o p' (n + ownSteps 0 0 ch) := by
  have hlen := fun vs total k hb hk => hi.total_le (vs := vs) (total := total) (k := k) hN (s₁ := s₁) hb hk
  obtain ⟨pre, gone, handed, h, hP, hC, hI⟩ := hi
  generalize hp : C.pc 0 = p at hs hP hok hm hK
  cases ch with
  | call o => cases p <;> simp [tstep] at hs
  | sync =>
    obtain ⟨rfl, rfl, -⟩ := tau_inv hs
    exact hK
  | swap j =>
    simp only [ownSteps, if_true]
    cases p <;> simp only [tstep, reduceCtorEq] at hs
    simp only [Option.bind_eq_some_iff, Prod.exists] at hs
    obtain ⟨s1, w, h1, hs⟩ := hs
    obtain ⟨rfl, rfl, -⟩ := tau_inv hs
    simp only [spentP] at hK ⊢; omega
  | throw =>
    simp only [ownSteps, if_true]
    cases p <;> simp only [tstep, reduceCtorEq] at hs
    case push3 =>
      obtain ⟨rfl, rfl, -⟩ := tau_inv hs
      obtain ⟨rfl, -⟩ := hm
      simp only [spentP, stepsOf, maxSteps] at hK ⊢; omega
    case rngCopy start dst xs rest second total newW =>
      obtain ⟨rfl, rfl, -⟩ := tau_inv hs
      obtain ⟨vs, rfl, h1, k, h2, h3⟩ := hm
      have := hlen _ _ _ h1 h2 h3
      have hx : 0 < xs.length := List.length_pos_iff.2 hP.1
      simp only [spentP] at hK
      split
      · simp only [spentP, stepsOf, maxSteps]; omega
      · simp only [spentP, maxSteps]; omega
    all_goals exact hP.elim
  | go j =>
    simp only [ownSteps, if_true]
    cases p <;> simp only [tstep] at hs
    case idle => simp at hs
    case push1 v =>
      simp only [Option.bind_eq_some_iff, Prod.exists] at hs
      obtain ⟨s1, w, h1, hs⟩ := hs
      obtain ⟨rfl, hw⟩ := h.loadWP h1
      obtain ⟨nx, hn1, _, hn2, _⟩ := nextIndex_exact (arg := w) (max := cfg.size)
        (by rw [hw]; exact Nat.mod_lt _ h.pos)
      rw [hn1] at hs
      obtain ⟨rfl, rfl, -⟩ := tau_inv hs
      simp only [spentP] at hK ⊢; omega
    case push2 v w nx =>
      obtain ⟨rfl, hb⟩ := hm
      simp only [Option.bind_eq_some_iff, Prod.exists] at hs
      obtain ⟨s1, r, h1, hs⟩ := hs
      obtain ⟨rfl, rfl, -⟩ := tau_inv hs
      simp only [spentP] at hK
      split <;> simp only [spentP, stepsOf, maxSteps] <;> omega
    case push3 v w nx =>
      obtain ⟨rfl, hw, hn, hf⟩ := hP
      obtain ⟨s1, h1, h2, h3, _⟩ := h.construct v hf
      simp only [List.length_nil, Nat.add_zero] at h1
      rw [hw, h1] at hs
      obtain ⟨rfl, rfl, -⟩ := tau_inv hs
      simp only [spentP] at hK ⊢; omega
    case push4 v nx =>
      obtain ⟨rfl, -⟩ := hm
      obtain ⟨rfl, rfl, -⟩ := tau_inv hs
      simp only [spentP, stepsOf, maxSteps] at hK ⊢; omega
    case rng1 vs =>
      simp only [Option.bind_eq_some_iff, Prod.exists] at hs
      obtain ⟨s1, w, h1, hs⟩ := hs
      obtain ⟨rfl, rfl, -⟩ := tau_inv hs
      simp only [spentP] at hK ⊢; omega
    case rng2 vs w =>
      obtain ⟨rfl, hb⟩ := hm
      simp only [Option.bind_eq_some_iff, Prod.exists] at hs
      obtain ⟨s1, r, h1, hs⟩ := hs
      obtain ⟨rfl, rfl, -⟩ := tau_inv hs
      simp only [spentP] at hK
      unfold rngPlan
      simp only
      split
      · simp only [spentP, stepsOf, maxSteps]; omega
      · split
        · refine spentP.rngNext ?_ ?_ <;> simp only [List.length_take, List.length_drop] <;> omega
        · refine spentP.rngNext ?_ ?_ <;> simp only [List.length_take, List.length_nil] <;> omega
    case rngCopy start dst xs rest second total newW =>
      obtain ⟨h1, done, rfl, h3⟩ := hP
      cases xs with
      | nil => exact absurd rfl h1
      | cons x xs =>
        obtain ⟨hd, _⟩ := h3.hdst h1
        have hf : Free cfg C.s ((done.map some).length + 1) := h3.free.mono (by rw [h3.tot]; simp)
        obtain ⟨s1, k1, k2, k3, _⟩ := h.construct x hf
        simp only [List.length_map] at k1
        simp only [hd, k1, orErr] at hs
        obtain ⟨rfl, rfl, -⟩ := tau_inv hs
        simp only [spentP, List.length_cons] at hK
        rw [hd] at hK
        exact spentP.rngNext (by omega) (by omega)
    case rngUnwind i stop =>
      obtain ⟨⟨vs, rfl⟩, hb⟩ := hm
      obtain ⟨d, xs, g1, rfl, hi, hst, hle, hf⟩ := hP
      cases xs with
      | nil => exact absurd rfl g1
      | cons x xs =>
        simp only [List.map_cons] at h hf
        obtain ⟨s1, k1, k2, k3, _⟩ := h.destroyP hf
        have hidx : (C.s.acc.length + (List.replicate d (none : Option α)).length) % cfg.size.toNat = i := by
          have := mod_add (c := C.s.acc.length) (d := d) (n := cfg.size.toNat) (by simp at hst; omega) h.pos
          simp only [List.length_replicate]
          rw [this, if_pos (by simp at hst; omega)]; exact hi.symm
        rw [hidx] at k1
        rw [k1] at hs
        obtain ⟨rfl, rfl, -⟩ := tau_inv hs
        simp only [spentP] at hK
        simp only [List.length_cons] at hst
        split
        · simp only [spentP, stepsOf, maxSteps] at hK ⊢; omega
        · simp only [spentP] at hK ⊢; omega
    case rngStore total newW =>
      obtain ⟨vs, rfl, hb, k, hk, ht⟩ := hm
      have := hlen _ _ _ hb hk ht
      obtain ⟨rfl, rfl, -⟩ := tau_inv hs
      simp only [spentP, stepsOf, maxSteps] at hK ⊢; omega
    case wav1 | emp1 =>
      simp only [Option.bind_eq_some_iff, Prod.exists] at hs
      obtain ⟨s1, w, h1, hs⟩ := hs
      obtain ⟨rfl, rfl, -⟩ := tau_inv hs
      simp only [spentP] at hK ⊢; omega
    case wav2 w | emp2 w | emp3 w =>
      obtain ⟨rfl, hb⟩ := hm
      simp only [Option.bind_eq_some_iff, Prod.exists] at hs
      obtain ⟨s1, r, h1, hs⟩ := hs
      obtain ⟨rfl, rfl, -⟩ := tau_inv hs
      simp only [spentP, stepsOf, maxSteps] at hK ⊢; omega
    case ret => simp at hs
    all_goals exact hP.elim

theorem spentP_max (hN : Holds cfg N) (hi : Inv cfg C) {s₁ : St α} {o : Op α} {n}
    (hm : midP cfg s₁ o C.s (C.pc 0)) (hK : spentP N o (C.pc 0) n) : n ≤ maxSteps N o := by
  have hlen := fun vs total k hb hk => hi.total_le (vs := vs) (total := total) (k := k) hN (s₁ := s₁) hb hk
  have hi' := hi
  obtain ⟨pre, gone, handed, h, hP, hC, hI⟩ := hi
  generalize hp : C.pc 0 = p at hP hm hK
  cases p <;> simp only [midP, spentP] at hm hK
  case push1 | push2 | push3 | push4 | rng1 | rng2 | wav1 | wav2 | emp1 | emp2 | emp3 =>
    obtain ⟨rfl, -⟩ := hm; simp only [maxSteps]; omega
  case rngCopy | rngStore =>
    obtain ⟨vs, rfl, h1, k, h2, h3⟩ := hm
    have := hlen _ _ _ h1 h2 h3
    simp only [maxSteps]; omega
  case rngUnwind => omega
  case ret r => omega

theorem ownSteps_idle {t : Nat} {s s' : St α} {ch : Choice α} {p'} (hs : tstep cfg t s .idle ch = some (s', p', none)) :
    ownSteps t t ch = 0 := by
  cases ch <;> simp [tstep] at hs
  rfl

theorem producer_count (hN : Holds cfg N) (s₁ : St α) (o : Op α) :
    CallRule ((mach α cfg).count (ownSteps 0)) (fun s => okSafe s.1) 0 o (fun C => Inv cfg ⟨C.s.1, C.pc⟩)
      (fun s => baseP s₁ s.1 ∧ s.2 = 0) (fun s p => midP cfg s₁ o s.1 p ∧ spentP N o p s.2)
      (fun r s => (s₁.vp.r ≤ s.1.vp.r ∧ producerPost cfg.cap s₁ s.1 o r) ∧ s.2 ≤ stepsOf N o r ∧ s.2 ≤ maxSteps N o) := by
  refine (producer_rule s₁ o).count (L := fun r n => n ≤ stepsOf N o r ∧ n ≤ maxSteps N o) ?_ ?_ ?_ ?_ ?_
  · intro t' ch ht; cases ch <;> simp [ownSteps, ht]
  · intro s ch s' p' hs; exact ownSteps_idle (cfg := cfg) hs
  · intro s ch s' p' hs
    obtain ⟨h1, rfl, rfl⟩ := call_ok (cfg := cfg) hs
    cases o <;> simp [start] at h1 <;> subst h1 <;> simp [spentP, ownSteps]
  · intro C ch s' p' n hJ hs hok hI _ hK
    exact spentP_step hN hJ hs hok hI hK
  · intro C ch s' p' r n hJ hs hI hK
    have hs : tstep cfg 0 C.s (C.pc 0) ch = some (s', p', some (.res 0 r)) := hs
    rcases mach_lawful _ _ _ _ _ _ _ hs with ⟨_, o', h1⟩ | ⟨r', h1, h2, h3⟩
    · cases h1
    · cases h3
      have h1 : C.pc 0 = .ret r := h1
      rw [h1] at hs hK
      cases ch <;> simp [tstep, tau] at hs
      exact hK

/-! ### Consumer -/

def spentC (N : Nat) (o : Op α) : PC α → Nat → Prop
  | .one1, n | .bulk1 _ _, n | .rav1, n | .emp1, n | .frt1, n => n ≤ 1
  | .one2 _, n | .bulk2 _ _ _, n | .rav2 _, n | .emp2 _, n | .emp3 _, n | .frt2 _, n => n ≤ 2
  | .one3 _, n | .frt3, n => n ≤ 3
  | .one4 _ _, n | .frt4 _, n => n ≤ 4
  | .one5 _ _, n => n ≤ 5
  | .bulkRead _ _ _ _ outs _, n | .bulkStore outs _, n => n ≤ 3 + 2 * outs.length
  | .bulkDestroy _ _ _ _ outs _, n => n ≤ 2 + 2 * outs.length
  | .ret r, n => n + 1 ≤ stepsOf N o r ∧ n + 1 ≤ maxSteps N o
  | _, _ => False

theorem spentC.bulkNext {o : Op α} {copy : Bool} {i rem rest : Nat} {outs : List α} {newR : SizeT} {n : Nat}
    (h : n ≤ 3 + 2 * outs.length) : spentC N o (bulkNext copy i rem rest outs newR) n := by
  unfold Spsc.bulkNext
  split
  · split <;> exact h
  · exact h

theorem atMost_mono (lim : Option Nat) {a b : Nat} (h : a ≤ b) : atMost lim a ≤ atMost lim b := by
  cases lim <;> simp only [atMost] <;> omega

theorem Inv.outs_le (hi : Inv cfg C) (hN : Holds cfg N) {s₁ : St α} (hr : C.s.rel = s₁.rel) {k}
    (hk : SeenAccepted s₁ C.s k) : k - s₁.rel ≤ N := by
  obtain ⟨_, _, _, h, -⟩ := hi
  obtain ⟨j, h1, h2, rfl⟩ := hk
  have h3 := h.cnt_le (Nat.le_trans h2 h.vcw)
  have h4 := h.room
  have h5 := hN.size
  omega

theorem spentC_step (hN : Holds cfg N) (hi : Inv cfg C) {s₁ : St α} {o : Op α} {ch : Choice α} {s' p' n}
    (hs : tstep cfg 1 C.s (C.pc 1) ch = some (s', p', none)) (hok : okSafe C.s (C.pc 1) ch)
    (hm : midC cfg s₁ o C.s (C.pc 1)) (hK : spentC N o (C.pc 1) n) : spentC N o p' (n + ownSteps 1 1 ch) := by
  have hlen := fun (hr : C.s.rel = s₁.rel) k hk => hi.outs_le (k := k) hN hr hk
  obtain ⟨pre, gone, handed, h, hP, hC, hI⟩ := hi
  generalize hp : C.pc 1 = p at hs hC hok hm hK
  cases ch with
  | call o => cases p <;> simp [tstep] at hs
  | sync =>
    obtain ⟨rfl, rfl, -⟩ := tau_inv hs
    exact hK
  | swap j =>
    simp only [ownSteps, if_true]
    cases p <;> simp only [tstep, reduceCtorEq] at hs
    simp only [Option.bind_eq_some_iff, Prod.exists] at hs
    obtain ⟨s1, w, h1, hs⟩ := hs
    obtain ⟨rfl, rfl, -⟩ := tau_inv hs
    simp only [spentC] at hK ⊢; omega
  | throw =>
    simp only [ownSteps, if_true]
    cases p <;> simp only [tstep, reduceCtorEq] at hs
    case one3 =>
      obtain ⟨rfl, h1, _⟩ := hm.2
      split at hs
      · rename_i hx
        obtain ⟨rfl, rfl, hr, hh⟩ := hC
        obtain ⟨s1, v, h1, h2, h3, h4⟩ := h.readC hh
        rw [Nat.add_zero, ← hr] at h1
        rw [h1] at hx; cases hx
      · obtain ⟨rfl, rfl, -⟩ := tau_inv hs
        simp only [spentC, stepsOf, maxSteps] at hK ⊢; omega
    case bulkRead copy i rem rest outs newR =>
      have hok : outs = [] := hok
      subst hok
      obtain ⟨lim, rfl, h1, h1', _⟩ := hm.2
      split at hs
      · rename_i hx
        obtain ⟨rfl, rfl, hrem, hb, ho⟩ := hC
        obtain ⟨s1, v, h1, h2, h3, h4⟩ := h.readC (hb.hav.mono (by omega))
        rw [← (hb.pos hrem).1] at h1
        rw [h1] at hx; cases hx
      · obtain ⟨rfl, rfl, -⟩ := tau_inv hs
        simp only [spentC, stepsOf, maxSteps, List.length_nil] at hK ⊢; omega
    all_goals exact hC.elim
  | go j =>
    simp only [ownSteps, if_true]
    cases p <;> simp only [tstep] at hs
    case idle => simp at hs
    case one1 | bulk1 | rav1 | emp1 | frt1 | frt3 =>
      simp only [Option.bind_eq_some_iff, Prod.exists] at hs
      obtain ⟨s1, w, h1, hs⟩ := hs
      obtain ⟨rfl, rfl, -⟩ := tau_inv hs
      simp only [spentC] at hK ⊢; omega
    case one2 w =>
      simp only [Option.bind_eq_some_iff, Prod.exists] at hs
      obtain ⟨s1, r, h1, hs⟩ := hs
      obtain ⟨rfl, rfl, -⟩ := tau_inv hs
      obtain ⟨rfl, h2, h3⟩ := hm.2
      simp only [spentC] at hK
      split <;> simp only [spentC, stepsOf, maxSteps] <;> omega
    case one3 r =>
      obtain ⟨rfl, rfl, hr, hh⟩ := hC
      obtain ⟨s1, v, h1, h2, h3, h4⟩ := h.readC hh
      rw [Nat.add_zero, ← hr] at h1
      simp only [h1] at hs
      obtain ⟨rfl, rfl, -⟩ := tau_inv hs
      simp only [spentC] at hK ⊢; omega
    case one4 v r =>
      obtain ⟨rfl, rfl, hr, hh, ho⟩ := hC
      obtain ⟨s1, h1, _⟩ := h.destroyC hh (by omega)
      rw [Nat.add_zero, ← hr] at h1
      simp only [h1, orErr] at hs
      obtain ⟨rfl, rfl, -⟩ := tau_inv hs
      simp only [spentC] at hK ⊢; omega
    case one5 v r =>
      obtain ⟨rfl, rfl, hr, ho⟩ := hC
      obtain ⟨nx, hn1, _⟩ := nextIndex_exact (arg := r) (max := cfg.size)
        (by rw [hr]; exact Nat.mod_lt _ h.pos)
      rw [hn1] at hs
      obtain ⟨rfl, rfl, -⟩ := tau_inv hs
      obtain ⟨rfl, -⟩ := hm.2
      simp only [spentC, stepsOf, maxSteps] at hK ⊢; omega
    case bulk2 copy lim w =>
      simp only [Option.bind_eq_some_iff, Prod.exists] at hs
      obtain ⟨s1, r, h1, hs⟩ := hs
      obtain ⟨rfl, rfl, -⟩ := tau_inv hs
      obtain ⟨rfl, -⟩ := hm.2
      simp only [spentC] at hK
      unfold bulkPlan
      simp only
      split
      · simp only [spentC, stepsOf, maxSteps, List.length_nil]; omega
      · split <;> exact spentC.bulkNext (by omega)
    case bulkRead copy i rem rest outs newR =>
      obtain ⟨rfl, rfl, hrem, hb, ho⟩ := hC
      have hh : Have C.s (outs.length + 1) := hb.hav.mono (by omega)
      obtain ⟨s1, v, h1, h2, h3, h4⟩ := h.readC hh
      rw [← (hb.pos hrem).1] at h1
      simp only [h1] at hs
      obtain ⟨rfl, rfl, -⟩ := tau_inv hs
      simp only [spentC] at hK
      split
      · exact spentC.bulkNext (by simp; omega)
      · simp only [spentC, List.length_append, List.length_cons, List.length_nil]; omega
    case bulkDestroy copy i rem rest outs newR =>
      obtain ⟨hg, rfl, hrem, hb, ho⟩ := hC
      obtain ⟨s1, h1, _⟩ := h.destroyC (hb.hav.mono (by omega)) (by omega)
      rw [← (hb.pos hrem).1] at h1
      simp only [h1, orErr] at hs
      obtain ⟨rfl, rfl, -⟩ := tau_inv hs
      simp only [spentC] at hK
      exact spentC.bulkNext (by omega)
    case bulkStore outs newR =>
      obtain ⟨rfl, rfl, -⟩ := tau_inv hs
      obtain ⟨c, lim, rfl, h5, h6, k, h7, h8, h9⟩ := hm.2
      have := atMost_mono lim (hlen h5 k h7)
      simp only [spentC, stepsOf, maxSteps] at hK ⊢; omega
    case rav2 w =>
      simp only [Option.bind_eq_some_iff, Prod.exists] at hs
      obtain ⟨s1, r, h1, hs⟩ := hs
      obtain ⟨rfl, rfl, -⟩ := tau_inv hs
      obtain ⟨rfl, -⟩ := hm.2
      simp only [spentC, stepsOf, maxSteps] at hK ⊢; omega
    case emp2 w | emp3 w =>
      simp only [Option.bind_eq_some_iff, Prod.exists] at hs
      obtain ⟨s1, r, h1, hs⟩ := hs
      obtain ⟨rfl, rfl, -⟩ := tau_inv hs
      obtain ⟨rfl, -⟩ := hm.2
      simp only [spentC, stepsOf, maxSteps] at hK ⊢; omega
    case frt2 w =>
      simp only [Option.bind_eq_some_iff, Prod.exists] at hs
      obtain ⟨s1, r, h1, hs⟩ := hs
      obtain ⟨rfl, rfl, -⟩ := tau_inv hs
      obtain ⟨rfl, h2, h3⟩ := hm.2
      simp only [spentC] at hK
      split <;> simp only [spentC, stepsOf, maxSteps] <;> omega
    case frt4 r =>
      obtain ⟨rfl, rfl, hr, hh⟩ := hC
      obtain ⟨s1, v, h1, h2, h3, h4⟩ := h.readC hh
      rw [Nat.add_zero, ← hr] at h1
      simp only [h1] at hs
      obtain ⟨rfl, rfl, -⟩ := tau_inv hs
      obtain ⟨⟨b, rfl⟩, h5⟩ := hm.2
      simp only [spentC, stepsOf, maxSteps] at hK ⊢; omega
    case ret => simp at hs
    all_goals exact hC.elim

theorem spentC_max (hN : Holds cfg N) (hi : Inv cfg C) {s₁ : St α} {o : Op α} {n}
    (hm : midC cfg s₁ o C.s (C.pc 1)) (hK : spentC N o (C.pc 1) n) : n ≤ maxSteps N o := by
  have hlen := fun (hr : C.s.rel = s₁.rel) k hk => hi.outs_le (k := k) hN hr hk
  obtain ⟨pre, gone, handed, h, hP, hC, hI⟩ := hi
  generalize hp : C.pc 1 = p at hC hm hK
  cases p <;> simp only [midC, spentC] at hm hK
  case one1 | one2 | one3 | one4 | one5 | bulk1 | bulk2 | rav1 | rav2 | emp1 | emp2 | emp3 | frt1 | frt2 =>
    obtain ⟨-, rfl, -⟩ := hm; simp only [maxSteps]; omega
  case frt3 | frt4 => obtain ⟨-, ⟨b, rfl⟩, -⟩ := hm; simp only [maxSteps]; omega
  case bulkRead | bulkDestroy =>
    obtain ⟨-, lim, rfl, h5, h6, k, h7, h8, h9⟩ := hm
    have := atMost_mono lim (hlen h5 k h7)
    simp only [maxSteps]; omega
  case bulkStore =>
    obtain ⟨-, c, lim, rfl, h5, h6, k, h7, h8, h9⟩ := hm
    have := atMost_mono lim (hlen h5 k h7)
    simp only [maxSteps]; omega
  case ret r => omega

theorem consumer_count (hN : Holds cfg N) (s₁ : St α) (o : Op α) :
    CallRule ((mach α cfg).count (ownSteps 1)) (fun s => okSafe s.1) 1 o (fun C => Inv cfg ⟨C.s.1, C.pc⟩)
      (fun s => (s₁.vc.w ≤ s.1.vc.w ∧ Untaken s₁ s.1) ∧ s.2 = 0)
      (fun s p => midC cfg s₁ o s.1 p ∧ spentC N o p s.2)
      (fun r s => (s₁.vc.w ≤ s.1.vc.w ∧ consumerPost s₁ s.1 o r) ∧ s.2 ≤ stepsOf N o r ∧ s.2 ≤ maxSteps N o) := by
  refine (consumer_rule s₁ o).count (L := fun r n => n ≤ stepsOf N o r ∧ n ≤ maxSteps N o) ?_ ?_ ?_ ?_ ?_
  · intro t' ch ht; cases ch <;> simp [ownSteps, ht]
  · intro s ch s' p' hs; exact ownSteps_idle (cfg := cfg) hs
  · intro s ch s' p' hs
    obtain ⟨h1, rfl, rfl⟩ := call_ok (cfg := cfg) hs
    cases o <;> simp [start] at h1 <;> try subst h1
    case front b => cases b <;> simp [spentC, ownSteps]
    all_goals simp [spentC, ownSteps]
  · intro C ch s' p' n hJ hs hok hI _ hK
    exact spentC_step hN hJ hs hok hI hK
  · intro C ch s' p' r n hJ hs hI hK
    have hs : tstep cfg 1 C.s (C.pc 1) ch = some (s', p', some (.res 1 r)) := hs
    rcases mach_lawful _ _ _ _ _ _ _ hs with ⟨_, o', h1⟩ | ⟨r', h1, h2, h3⟩
    · cases h1
    · cases h3
      have h1 : C.pc 1 = .ret r := h1
      rw [h1] at hs hK
      cases ch <;> simp [tstep, tau] at hs
      exact hK

/-! ## C10 -/

/-- C10. Number of steps of a call, whatever the other thread does: a call in progress has made at most `maxSteps`
steps, a finished one at most `stepsOf`, which is constant for single elements and linear in the number of elements
transferred for bulk operations. `t` is 0 (producer) or 1 (consumer). -/
theorem spsc_wait_free (hN : Holds cfg N) (hx : Exec cfg h C₁) {t : Nat} (ht : t ≤ 1) (h0 : C₁.pc t = .idle)
    {C₂ : MConf (St α × Nat) (PC α)}
    (hs : MSteps ((mach α cfg).count (ownSteps t)) (fun s => okSafe s.1) ⟨(C₁.s, 0), C₁.pc⟩ h' C₂) {o r}
    (hc : ofThread t h' <+: [.inv t o, .res t r]) :
    C₂.s.2 ≤ maxSteps N o ∧ (ofThread t h' = [.inv t o, .res t r] → C₂.s.2 ≤ stepsOf N o r) := by
  have hi := hN.inv hx
  match t, ht with
  | 0, _ =>
    obtain ⟨h1, h2⟩ := hs.call_rule mach_lawful.count mach_calm.count (producer_count hN C₁.s o) hi
      ⟨⟨rfl, Nat.le_refl _⟩, rfl⟩ h0 hc
    rcases h2 with ⟨h3, _, h4⟩ | ⟨h3, h4⟩ | ⟨_, _, h4⟩
    · exact ⟨by rw [h4.2]; exact Nat.zero_le _, fun h5 => by rw [h4.2]; exact Nat.zero_le _⟩
    · exact ⟨spentP_max (C := ⟨C₂.s.1, C₂.pc⟩) hN h1 h4.1 h4.2, fun h5 => by rw [h3] at h5; cases h5⟩
    · exact ⟨h4.2.2, fun _ => h4.2.1⟩
  | 1, _ =>
    obtain ⟨h1, h2⟩ := hs.call_rule mach_lawful.count mach_calm.count (consumer_count hN C₁.s o) hi
      ⟨⟨Nat.le_refl _, rfl, rfl⟩, rfl⟩ h0 hc
    rcases h2 with ⟨h3, _, h4⟩ | ⟨h3, h4⟩ | ⟨_, _, h4⟩
    · exact ⟨by rw [h4.2]; exact Nat.zero_le _, fun h5 => by rw [h4.2]; exact Nat.zero_le _⟩
    · exact ⟨spentC_max (C := ⟨C₂.s.1, C₂.pc⟩) hN h1 h4.1 h4.2, fun h5 => by rw [h3] at h5; cases h5⟩
    · exact ⟨h4.2.2, fun _ => h4.2.1⟩

theorem orErr_some (s : St α) (x : Option (St α)) (p : PC α) : ∃ s' p', orErr s x p = some (s', p', none) := by
  cases x <;> exact ⟨_, _, rfl⟩

/-- C10. A call in progress can always make its next step: it never waits for the other thread. -/
theorem spsc_never_blocks (hN : Holds cfg N) (hx : Exec cfg h C) {t : Nat} (ht : C.pc t ≠ .idle) :
    ∃ j s' p' e, tstep cfg t C.s (C.pc t) (.go j) = some (s', p', e) := by
  obtain ⟨pre, gone, handed, hi, hP, hC, hI⟩ := hN.inv hx
  have hvw := hi.vcw
  have hvr := hi.vpr
  have hw := hi.vpw
  have hr := hi.vcr
  match t with
  | 0 =>
    have l1 : C.s.loadWP C.s.wlast = some (_, _) := if_pos ⟨by omega, Nat.le_refl _⟩
    have l2 : ∀ b, C.s.loadRP b C.s.rlast = some (_, _) := fun b => if_pos ⟨by omega, Nat.le_refl _⟩
    generalize C.pc 0 = p at ht hP
    cases p <;> try exact hP.elim
    case idle => exact absurd rfl ht
    case push1 v =>
      refine ⟨C.s.wlast, ?_⟩
      simp only [tstep, l1, Option.bind_some]
      split <;> exact ⟨_, _, _, rfl⟩
    case rng1 | wav1 | emp1 | emp3 => exact ⟨C.s.wlast, by simp only [tstep, l1, Option.bind_some]; exact ⟨_, _, _, rfl⟩⟩
    case push2 | rng2 | wav2 | emp2 =>
      exact ⟨C.s.rlast, by simp only [tstep, l2, Option.bind_some]; exact ⟨_, _, _, rfl⟩⟩
    case push3 | rngUnwind =>
      obtain ⟨a, b, h⟩ := orErr_some C.s _ _
      exact ⟨0, _, _, _, h⟩
    case rngCopy a b xs _ _ _ _ =>
      cases xs with
      | nil => exact absurd rfl hP.1
      | cons x xs =>
        obtain ⟨a, b, h⟩ := orErr_some C.s _ _
        exact ⟨0, _, _, _, h⟩
    all_goals exact ⟨0, _, _, _, rfl⟩
  | 1 =>
    have l1 : ∀ b, C.s.loadWC b C.s.wlast = some (_, _) := fun b => if_pos ⟨by omega, Nat.le_refl _⟩
    have l2 : C.s.loadRC C.s.rlast = some (_, _) := if_pos ⟨by omega, Nat.le_refl _⟩
    generalize C.pc 1 = p at ht hC
    cases p <;> try exact hC.elim
    case idle => exact absurd rfl ht
    case one1 | bulk1 | rav1 | emp1 | emp3 | frt1 =>
      exact ⟨C.s.wlast, by simp only [tstep, l1, Option.bind_some]; exact ⟨_, _, _, rfl⟩⟩
    case one2 | bulk2 | rav2 | emp2 | frt2 | frt3 =>
      exact ⟨C.s.rlast, by simp only [tstep, l2, Option.bind_some]; exact ⟨_, _, _, rfl⟩⟩
    case one4 | bulkDestroy =>
      obtain ⟨a, b, h⟩ := orErr_some C.s _ _
      exact ⟨0, _, _, _, h⟩
    case one3 | bulkRead | frt4 =>
      refine ⟨0, ?_⟩
      simp only [tstep]
      split <;> exact ⟨_, _, _, rfl⟩
    case one5 =>
      refine ⟨0, ?_⟩
      simp only [tstep]
      split <;> exact ⟨_, _, _, rfl⟩
    all_goals exact ⟨0, _, _, _, rfl⟩
  | t + 2 => exact absurd (hI t) ht

end Verif.Spsc
