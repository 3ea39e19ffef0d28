import Verif.NotLin
import Verif.Spsc.Sim

/-!
# Exceptions, limits and what does not hold for `spsc_queue` (C08, C11, C12, C13, C42)
-/

namespace Verif.Spsc
open Lin

variable {α : Type} {cfg : Cfg} {N : Nat} {C : Conf α} {h : History (Op α) (Ret α)}

/-! ## Throwing consumers (C12) -/

/-- C12. If the functor of `consume_one` (or an assignment in `pop`) throws, the call ends and nothing changed: not the
objects in the buffer, not the indices, not what counts as accepted and handed out. -/
theorem spsc_consume_one_throw (hN : Holds cfg N) (hx : Exec cfg h C) {r : SizeT} (hp : C.pc 1 = .one3 r) :
    ∃ s', tstep cfg 1 C.s (C.pc 1) .throw = some (s', .ret .threw, none) ∧ s'.cell = C.s.cell ∧ s'.W = C.s.W ∧
      s'.wlast = C.s.wlast ∧ s'.R = C.s.R ∧ s'.rlast = C.s.rlast ∧ s'.acc = C.s.acc ∧ s'.out = C.s.out ∧
      s'.ctor = C.s.ctor ∧ s'.dtor = C.s.dtor := by
  obtain ⟨pre, gone, handed, hS, hP, hC, hI⟩ := hN.inv hx
  rw [hp] at hC ⊢
  obtain ⟨rfl, rfl, hr, hh⟩ := hC
  obtain ⟨s1, v, h1, _⟩ := hS.readC hh
  rw [Nat.add_zero, ← hr] at h1
  refine ⟨s1, by simp only [tstep, h1, tau], ?_⟩
  simp only [St.readC, St.touchC] at h1
  split at h1
  · simp at h1
  · split at h1
    · simp only [Option.map_some, Option.some.injEq, Prod.mk.injEq] at h1
      obtain ⟨rfl, _⟩ := h1
      exact ⟨rfl, rfl, rfl, rfl, rfl, rfl, rfl, rfl, rfl⟩
    · simp at h1

theorem bulkPlan_first {copy : Bool} {lim : Option Nat} {w r : SizeT} (h0 : readAvail w r cfg.size ≠ 0)
    (hl : lim ≠ some 0) (hr : r.toNat < cfg.size.toNat) :
    ∃ rem rest newR, bulkPlan cfg copy lim w r = (.bulkRead copy r.toNat rem rest [] newR : PC α) := by
  have hne : (readAvail w r cfg.size).toNat ≠ 0 := fun h => h0 (BitVec.eq_of_toNat_eq (by simpa using h))
  have hlt := (readAvail w r cfg.size).isLt
  unfold bulkPlan
  simp only [if_neg h0]
  split
  · have h1 : (cfg.size - r).toNat ≠ 0 := by
      rw [BitVec.toNat_sub]; have := cfg.size.isLt; omega
    simp only [bulkNext, if_neg h1]
    exact ⟨_, _, _, rfl⟩
  · have h1 : (BitVec.ofNat 64 (atMost lim (readAvail w r cfg.size).toNat)).toNat ≠ 0 := by
      rw [BitVec.toNat_ofNat]
      cases lim with
      | none => simp only [atMost]; omega
      | some l =>
        simp only [ne_eq, Option.some.injEq] at hl
        simp only [atMost]; omega
    simp only [bulkNext, if_neg h1]
    exact ⟨_, _, _, rfl⟩

/-- C12. If the functor of `consume_all` (or `pop` of several elements) throws after it consumed elements `outs` of a
type with a destructor: the destroyed elements are still counted, and the next `pop`, `consume_one` or `consume_all` of
the consumer, whichever stores its loads return, uses a destroyed object. So does the destructor of the queue, which
calls `consume_all` (spsc_queue.hpp:451, 583). -/
theorem spsc_consume_all_throw (hN : Holds cfg N) (hx : Exec cfg h C) (ht : cfg.trivial = false) {copy i rem rest}
    {outs : List α} {newR} (hp : C.pc 1 = .bulkRead copy i rem rest outs newR) (ho : outs ≠ []) :
    ∃ s', tstep cfg 1 C.s (C.pc 1) .throw = some (s', .ret .threw, none) ∧
      s'.rel = C.s.rel ∧ s'.acc = C.s.acc ∧ s'.rel + outs.length < s'.acc.length ∧
      (∀ k, k < outs.length → s'.cell ((s'.rel + k) % cfg.size.toNat) = none) ∧
      ∀ pc : Nat → PC α, pc 1 = .idle → ∀ j₁ j₂ j₃ D h₂ o, (o = .pop ∨ ∃ cp lim, lim ≠ some 0 ∧ o = .popMany cp lim) →
        (mach α cfg).run ⟨s', pc⟩ [] [(1, .call o), (1, .go j₁), (1, .go j₂), (1, .go j₃)] = some (D, h₂) →
        D.pc 1 = .err := by
  obtain ⟨pre, gone, handed, hS, hP, hC, hI⟩ := hN.inv hx
  rw [hp] at hC ⊢
  obtain ⟨rfl, rfl, hrem, hb, hpre⟩ := hC
  obtain ⟨s1, v, h1, hS1, -⟩ := hS.readC (hb.hav.mono (by omega))
  have hlen := hS.have_le hb.hav
  rw [← (hb.pos hrem).1] at h1
  have h8 := readC_ev h1
  have hol : 0 < outs.length := List.length_pos_iff.2 ho
  have hrel : s1.rel = C.s.rel := h8.2.1
  have hacc : s1.acc = C.s.acc := h8.1.acc
  have hdead : ∀ k, k < outs.length → s1.cell ((s1.rel + k) % cfg.size.toNat) = none := fun k hk =>
    hS1.dead ht _ (by omega) (by have := hS1.room; have := hS1.hl; omega) (.inl (by omega))
  refine ⟨s1, by simp only [tstep, h1, tau], hrel, hacc, by rw [hrel, hacc]; omega, hdead, ?_⟩
  intro pc hpc j₁ j₂ j₃ D h₂ o hop hrun
  have d0 := hdead 0 hol
  rw [Nat.add_zero] at d0
  have fin : ∀ {w r : SizeT} {s2 : St α}, s1.loadWC true j₁ = some (s2, w) → s2.loadRC j₂ = some (s2, r) →
      r.toNat = s1.rel % cfg.size.toNat ∧ w ≠ r ∧ s2.cell = s1.cell ∧
      ∃ k, k ≤ s2.vc.w ∧ w.toNat = (s2.W k).cnt % cfg.size.toNat ∧ s2.rel < (s2.W k).cnt ∧
        (s2.W k).view.p ≤ s2.vc.p ∧ s2.rel = s1.rel ∧ SI cfg s2 pre outs.length outs.length := by
    intro w r s2 hw hr
    obtain ⟨vv, rfl, g2, g3, g4, g5, g6, g7, g8, g9, g10⟩ := hS1.loadWC hw
    obtain ⟨-, hr⟩ := g2.loadRC hr
    have k1 := hS1.wmono _ _ g3 g4
    have k2 := hS1.seenW
    have k3 := hS1.room
    refine ⟨hr, fun he => ?_, rfl, j₁, g5, g6, ?_, g9 rfl, rfl, g2⟩
    · have := (index_eq_iff (n := cfg.size.toNat) g6 hr (by show s1.rel ≤ _; omega) (by show _ < s1.rel + _; omega)).1
        (by simp [he])
      have : (s1.W j₁).cnt = s1.rel := this
      omega
    · show s1.rel < (s1.W j₁).cnt
      omega
  have noread : ∀ {s2 : St α} {x : SizeT}, s2.cell = s1.cell → x.toNat = s1.rel % cfg.size.toNat →
      s2.readC cfg x.toNat = none := by
    intro s2 x g1 g2
    rw [g2]
    simp only [St.readC, g1, d0]
  rcases hop with rfl | ⟨cp, lim, hlim, rfl⟩
  · simp only [Mach.run, mach, tstep, hpc, start, Option.map_some, upd_self, tau] at hrun
    cases hw : s1.loadWC true j₁ with
    | none => simp [hw] at hrun
    | some x =>
      obtain ⟨s2, w⟩ := x
      simp only [hw, Option.bind_some] at hrun
      cases hr : s2.loadRC j₂ with
      | none => simp [hr] at hrun
      | some x =>
        obtain ⟨s3, r⟩ := x
        obtain ⟨vv, rfl, g2, -⟩ := hS1.loadWC hw
        obtain ⟨rfl, -⟩ := g2.loadRC hr
        obtain ⟨f1, f2, f3, -⟩ := fin hw hr
        simp only [hr, Option.bind_some, if_neg f2, noread f3 f1] at hrun
        simp only [Option.some.injEq, Prod.mk.injEq] at hrun
        rw [← hrun.1]
        simp
  · simp only [Mach.run, mach, tstep, hpc, start, Option.map_some, upd_self, tau] at hrun
    cases hw : s1.loadWC true j₁ with
    | none => simp [hw] at hrun
    | some x =>
      obtain ⟨s2, w⟩ := x
      simp only [hw, Option.bind_some] at hrun
      cases hr : s2.loadRC j₂ with
      | none => simp [hr] at hrun
      | some x =>
        obtain ⟨s3, r⟩ := x
        obtain ⟨vv, rfl, g2, -⟩ := hS1.loadWC hw
        obtain ⟨rfl, -⟩ := g2.loadRC hr
        obtain ⟨f1, f2, f3, k, k1, k2, k3, k4, k5, k6⟩ := fin hw hr
        simp only [hr, Option.bind_some] at hrun
        have hlt := Nat.mod_lt s1.rel hS.pos
        have hav := readAvail_exact (w := w) (r := r) (c := s1.rel) (d := (s1.W k).cnt - s1.rel) (max := cfg.size)
          (by have := hS1.cnt_le (Nat.le_trans k1 k6.vcw); have := hS1.room; omega) f1
          (by rw [k2]; congr 1; have : s1.rel < (s1.W k).cnt := k3; show (s1.W k).cnt = _; omega)
        have hav0 : readAvail w r cfg.size ≠ 0 := fun h0 => by
          rw [h0] at hav
          have : s1.rel < (s1.W k).cnt := k3
          simp at hav; omega
        obtain ⟨rem', rest', nR, hx⟩ := bulkPlan_first (α := α) (copy := cp) hav0 hlim (by omega)
        rw [hx] at hrun
        simp only [noread f3 f1] at hrun
        simp only [Option.some.injEq, Prod.mk.injEq] at hrun
        rw [← hrun.1]
        simp

/-! ## Exceptions in a range push (C42) -/

/-- Unwinding of the second section: destroys what it constructed and leaves the first section alone. -/
theorem unwind_second (xs : List α) : ∀ {s : St α} {first : List α} {d gone handed i stop : Nat},
    SI cfg s (first.map some ++ (List.replicate d none ++ xs.map some)) gone handed →
    Free cfg s (first.length + d + xs.length) → xs ≠ [] →
    i = d → stop = i + xs.length → stop ≤ cfg.size.toNat →
    (s.acc.length + first.length) % cfg.size.toNat = 0 → ∀ pc : Nat → PC α, pc 0 = .rngUnwind i stop →
    ∃ D, (mach α cfg).run ⟨s, pc⟩ [] (List.replicate xs.length (0, .go 0)) = some (D, []) ∧
      D.pc 0 = .ret .threw ∧ D.s.acc = s.acc ∧ D.s.rel = s.rel ∧
      SI cfg D.s (first.map some ++ List.replicate (d + xs.length) none) gone handed := by
  induction xs with
  | nil => intro _ _ _ _ _ _ _ _ _ h; exact absurd rfl h
  | cons x xs ih =>
    intro s first d gone handed i stop hS hf _ hi hst hle h0 pc hpc
    have hS' : SI cfg s ((first.map some ++ List.replicate d none) ++ some x :: xs.map some) gone handed := by
      simpa using hS
    obtain ⟨s1, k1, k2, k3, k4, k5, k6, k7, k8, k9, k10, k11⟩ := hS'.destroyP (hf.mono (by simp; omega))
    have hidx : (s.acc.length + (first.map some ++ List.replicate d (none : Option α)).length) % cfg.size.toNat = i := by
      simp only [List.length_append, List.length_map, List.length_replicate]
      simp only [List.length_cons] at hst
      rw [← Nat.add_assoc, Nat.add_mod, h0, Nat.zero_add, Nat.mod_mod, Nat.mod_eq_of_lt (by omega)]
      exact hi.symm
    rw [hidx] at k1
    have hstep : tstep cfg 0 s (.rngUnwind i stop) (.go 0) =
        some (s1, if i + 1 = stop then .ret .threw else .rngUnwind (i + 1) stop, none) := by
      simp only [tstep, k1, orErr, tau]
    have hrel : s1.rel = s.rel := by simp only [St.rel, k4, k5]
    have k2' : SI cfg s1 (first.map some ++ (List.replicate (d + 1) none ++ xs.map some)) gone handed := by
      rw [List.replicate_succ']; simpa using k2
    cases xs with
    | nil =>
      refine ⟨⟨s1, upd pc 0 (.ret .threw)⟩, ?_, by simp, k3, hrel, by simpa using k2'⟩
      simp only [List.length_cons, List.length_nil] at hst
      simp only [List.length_cons, List.length_nil, List.replicate, Mach.run, mach, hpc, hstep]
      rw [if_pos (by omega)]; rfl
    | cons y ys =>
      have hf' : Free cfg s1 (first.length + (d + 1) + (y :: ys).length) := by
        refine Free.mono (hf.stable k3 k11 k10 (fun k _ => by rw [k4])) ?_
        simp only [List.length_cons]; omega
      obtain ⟨D, h1, h2, h3, h4, h5⟩ := ih (pc := upd pc 0 (.rngUnwind (i + 1) stop)) k2' hf' (by simp)
        (i := i + 1) (by omega) (by simp only [List.length_cons] at hst ⊢; omega) hle (by rw [k3]; exact h0) (by simp)
      refine ⟨D, ?_, h2, h3.trans k3, h4.trans hrel, ?_⟩
      · rw [show (x :: y :: ys).length = (y :: ys).length + 1 from rfl, List.replicate_succ]
        simp only [Mach.run]
        have : (mach α cfg).step 0 s (pc 0) (.go 0) = some (s1, .rngUnwind (i + 1) stop, none) := by
          rw [hpc]
          refine hstep.trans ?_
          rw [if_neg (by simp only [List.length_cons] at hst; omega)]
        rw [this]
        exact h1
      · rw [show d + (x :: y :: ys).length = d + 1 + (y :: ys).length by simp only [List.length_cons]; omega]
        exact h5

/-- C42. If constructing an element throws in the second section of a range push (after the wrap-around) of a type with
a destructor, the call ends with the exception and accepts nothing, but the elements it constructed in the first section
are neither part of the queue nor destroyed: `leaked > 0` objects are lost. (`queued` are in the queue, `taken` is what a
consumer call in progress has destroyed but not yet released.) -/
theorem spsc_range_push_throw_leaks (hN : Holds cfg N) (hx : Exec cfg h C) (ht : cfg.trivial = false)
    {start dst xs rest total newW} (hp : C.pc 0 = .rngCopy start dst xs rest true total newW) :
    ∃ D leaked, (mach α cfg).run C [] ((0, .throw) :: List.replicate dst (0, .go 0)) = some (D, []) ∧
      D.pc 0 = .ret .threw ∧ D.s.acc = C.s.acc ∧ D.s.rel = C.s.rel ∧ 0 < leaked ∧
      ∃ taken, D.s.ctor = D.s.dtor + (D.s.acc.length - (D.s.rel + taken)) + leaked ∧
        (C.pc 1 = .idle → taken = 0) ∧
      ∀ k, k < leaked → (D.s.cell ((D.s.acc.length + k) % cfg.size.toNat)).isSome := by
  obtain ⟨pre, gone, handed, hS, hP, hC, hI⟩ := hN.inv hx
  rw [hp] at hP
  obtain ⟨h1, done, rfl, h3⟩ := hP
  obtain ⟨rfl, h5⟩ := h3.hsec rfl
  obtain ⟨h6, h7, -⟩ := h3.hdst h1
  have hxs := List.length_pos_iff.2 h1
  have htot := congrArg List.length h3.tot
  simp only [List.length_append] at htot
  -- the first section
  have hfirst : (C.s.acc.length + (done.take (done.length - dst)).length) % cfg.size.toNat = 0 := by
    rw [List.length_take, Nat.min_eq_left (by omega)]
    have e : C.s.acc.length + done.length = (C.s.acc.length + (done.length - dst)) + dst := by omega
    have h8 := Nat.sub_mod_eq_zero_of_mod_eq (m := C.s.acc.length + done.length) (k := cfg.size.toNat) (n := dst)
      (by rw [← h6, Nat.mod_eq_of_lt (by omega)])
    rw [show C.s.acc.length + (done.length - dst) = C.s.acc.length + done.length - dst by omega]
    exact h8
  have hsplit : done.map some = (done.take (done.length - dst)).map some ++
      (List.replicate 0 none ++ (done.drop (done.length - dst)).map some) := by
    simp [← List.map_append]
  have fin : ∀ (D : Conf α) (d : Nat), D.s.acc = C.s.acc → D.s.rel = C.s.rel →
      SI cfg D.s ((done.take (done.length - dst)).map some ++ List.replicate d none) gone handed →
      ∃ taken, D.s.ctor = D.s.dtor + (D.s.acc.length - (D.s.rel + taken)) + (done.length - dst) ∧
        (C.pc 1 = .idle → taken = 0) ∧
      ∀ k, k < done.length - dst → (D.s.cell ((D.s.acc.length + k) % cfg.size.toNat)).isSome := by
    intro D d ha hr hD
    refine ⟨gone, ?_, fun hc => ?_, fun k hk => ?_⟩
    · have hb := hD.bal ht
      have e1 : ((done.take (done.length - dst)).map some ++ List.replicate d (none : Option α)).countP (·.isSome) =
          done.length - dst := by
        rw [List.countP_append, countP_map_some, List.countP_replicate]
        simp
      rw [e1] at hb
      exact hb
    · rw [hc] at hC; exact hC.1
    · obtain ⟨v, hv⟩ : ∃ v, done[k]? = some v := ⟨_, List.getElem?_eq_getElem (by omega)⟩
      have := hD.preLive k v (by
        rw [List.getElem?_append_left (by simp; omega), List.getElem?_map, List.getElem?_take_of_lt hk, hv]; rfl)
      rw [this]; rfl
  by_cases hd : dst = 0
  · subst hd
    refine ⟨⟨C.s, upd C.pc 0 (.ret .threw)⟩, done.length - 0, ?_, by simp, rfl, rfl, by omega, ?_⟩
    · simp only [Mach.run, mach, hp, tstep, if_pos, tau, List.replicate]; rfl
    · exact fin ⟨C.s, _⟩ 0 rfl rfl (by simpa using hS)
  · have hlen : (done.drop (done.length - dst)).length = dst := by rw [List.length_drop]; omega
    obtain ⟨D, g1, g2, g3, g4, g5⟩ := unwind_second (done.drop (done.length - dst)) (hsplit ▸ hS)
      (h3.free.mono (by simp only [List.length_take, hlen]; omega))
      (fun h => hd (by rw [h] at hlen; exact hlen.symm)) rfl rfl (by rw [hlen]; omega) hfirst
      (upd C.pc 0 (.rngUnwind 0 dst)) (by simp [hlen])
    refine ⟨D, done.length - dst, ?_, g2, g3, g4, by omega, fin D _ g3 g4 g5⟩
    rw [hlen] at g1
    simp only [Mach.run]
    have : (mach α cfg).step 0 C.s (C.pc 0) .throw = some (C.s, .rngUnwind 0 dst, none) := by
      rw [hp]
      simp only [mach, tstep, tau, if_neg (fun h => hd (Eq.symm h))]
    rw [this]
    exact g1

/-! ## Size 0 (C13) -/

/-- C13. A queue constructed with `SIZE_MAX` has internal size 0. Once the producer has called `push` on it, the call
never returns, whatever happens in the queue. -/
theorem spsc_size_zero_hangs (n : SizeT) (hn : n.toNat = 2 ^ 64 - 1) (hc : cfg.size = bufferSize n) {v : α}
    {ok : St α → PC α → Choice α → Prop} {C C' : Conf α} {h} (hp : C.pc 0 = .push1 v)
    (hx : MSteps (mach α cfg) ok C h C') : ∀ r, C'.pc 0 ≠ .ret r := by
  have h0 : cfg.size = 0 := hc.trans ((bufferSize_spec n).2 hn).1
  suffices C'.pc 0 = .push1 v ∨ C'.pc 0 = .spin by
    intro r hr
    rcases this with h | h <;> rw [hr] at h <;> cases h
  induction hx with
  | refl => exact .inl hp
  | @step h C t ch s' p' e hx hs hok ih =>
    by_cases ht : t = 0
    · subst ht
      simp only [upd_self]
      have hs : tstep cfg 0 C.s (C.pc 0) ch = some (s', p', e) := hs
      rcases ih with h1 | h1 <;> rw [h1] at hs
      · cases ch <;> simp only [tstep, reduceCtorEq] at hs
        · simp only [Option.bind_eq_some_iff, Prod.exists] at hs
          obtain ⟨s1, w, _, hs⟩ := hs
          simp only [nextIndex, h0, if_pos] at hs
          obtain ⟨-, rfl, -⟩ := tau_inv hs
          exact .inr rfl
        · obtain ⟨-, rfl, -⟩ := tau_inv hs
          exact .inl rfl
      · cases ch <;> simp only [tstep, reduceCtorEq] at hs
        · obtain ⟨-, rfl, -⟩ := tau_inv hs
          exact .inr rfl
        · obtain ⟨-, rfl, -⟩ := tau_inv hs
          exact .inr rfl
    · simp only [upd_ne _ _ _ (Ne.symm ht)]
      exact ih

/-! ## Bulk operations are not atomic (C11) -/

/-- The specification with atomic bulk operations: exactly as many elements as fit, as are available. -/
def exactSpec (α : Type) (cap : Nat) : Spec (Op α) (Ret α) where
  State := List α
  init := []
  step σ o r σ' := specStep cap σ o r σ' ∧
    (∀ vs k, o = .pushMany vs → r = .pushedMany k → k = min vs.length (cap - σ.length)) ∧
    (∀ c lim vs, o = .popMany c lim → r = .poppedMany vs → vs.length = atMost lim σ.length)

/-- Computes the next state of `exactSpec` on a queue of numbers, for the calls used below. -/
def exactNext (cap : Nat) (σ : List Nat) : Op Nat → Ret Nat → Option (List Nat)
  | .push v, .pushed true => if σ.length < cap then some (σ ++ [v]) else none
  | .push _, .pushed false => if σ.length = cap then some σ else none
  | .pushMany vs, .pushedMany k => if k = min vs.length (cap - σ.length) then some (σ ++ vs.take k) else none
  | .pop, .popped none => if σ = [] then some [] else none
  | .pop, .popped (some v) => match σ with
    | [] => none
    | x :: σ => if x = v then some σ else none
  | .popMany _ lim, .poppedMany vs => if vs.length = atMost lim σ.length then some (σ.drop vs.length) else none
  | .writeAvail, _ | .isEmpty, _ | .readAvail, _ | .front _, _ | _, .threw => some σ
  | _, _ => none

theorem exactNext_step {cap : Nat} (σ : List Nat) (o r) (σ' : List Nat) (h1 : specStep cap σ o r σ')
    (h2 : ∀ vs k, o = .pushMany vs → r = .pushedMany k → k = min vs.length (cap - σ.length))
    (h3 : ∀ c lim vs, o = .popMany c lim → r = .poppedMany vs → vs.length = atMost lim σ.length) :
    exactNext cap σ o r = some σ' := by
  revert h1
  unfold specStep
  split <;> intro h1
  · simp [exactNext, h1]
  · simp [exactNext, h1]
  · simp [exactNext, h1]
  · have := h2 _ _ rfl rfl
    simp [exactNext, ← this, h1.2.2.2]
  · simp [exactNext, h1]
  · simp [exactNext, h1.2]
  · simp [exactNext, h1.2]
  · simp [exactNext, h1]
  · simp [exactNext, h1]
  · simp [exactNext, h1]
  · have := h3 _ _ _ rfl rfl
    simp only [exactNext, ← this, if_pos]
    simp [h1.1]
  · simp [exactNext, h1]
  · simp [exactNext, h1.2]
  · simp [exactNext, h1.2]
  · simp [exactNext, h1.2]
  · exact h1.elim

theorem exactNext_spec {cap : Nat} (σ o r σ') (hs : (exactSpec Nat cap).step σ o r σ') :
    exactNext cap σ o r = some σ' := exactNext_step σ o r σ' hs.1 hs.2.1 hs.2.2

/-- Computable form of `okSC` (without exceptions and unchecked `front()`). -/
def okSCb (s : St α) (p : PC α) : Choice α → Bool
  | .go j => match p with
    | .push1 _ | .rng1 _ | .wav1 | .emp1 | .emp3 _ | .one1 | .bulk1 _ _ | .rav1 | .frt1 => j == s.wlast
    | .push2 _ _ _ | .rng2 _ _ | .wav2 _ | .emp2 _ | .one2 _ | .bulk2 _ _ _ | .rav2 _ | .frt2 _ | .frt3 => j == s.rlast
    | _ => true
  | .swap j => j == s.rlast
  | .call (.front false) | .throw => false
  | _ => true

theorem okSCb_spec (s : St α) (p ch) (h : okSCb s p ch = true) : okSC s p ch := by
  refine ⟨?_, ?_, ?_⟩
  · cases ch with
    | call o =>
      cases o <;> try trivial
      rename_i b
      cases b
      · simp [okSCb] at h
      · trivial
    | go j => trivial
    | swap j => trivial
    | throw => simp [okSCb] at h
    | sync => trivial
  · rintro j rfl
    cases p <;> first | trivial | simpa [okSCb] using h
  · rintro j rfl
    simpa [okSCb] using h

def cfg2 : Cfg := ⟨3, false⟩

theorem cfg2_holds : Holds cfg2 2 := ⟨rfl, by decide⟩

/-- `push 1`; then `pushMany [2, 3]` reads both indices, and the consumer pops 1 and then finds the queue empty before
the producer goes on and accepts one element only. -/
def bulkPushSched : List (Nat × Choice Nat) :=
  [(0, .call (.push 1)), (0, .go 0), (0, .go 0), (0, .go 0), (0, .go 0), (0, .go 0),
   (0, .call (.pushMany [2, 3])), (0, .go 1), (0, .go 0),
   (1, .call .pop), (1, .go 1), (1, .go 0), (1, .go 0), (1, .go 0), (1, .go 0), (1, .go 0),
   (1, .call .pop), (1, .go 1), (1, .go 1), (1, .go 0),
   (0, .go 0), (0, .go 0), (0, .go 0)]

def bulkPushHistory : History (Op Nat) (Ret Nat) :=
  [.inv 0 (.push 1), .res 0 (.pushed true), .inv 0 (.pushMany [2, 3]), .inv 1 .pop, .res 1 (.popped (some 1)),
   .inv 1 .pop, .res 1 (.popped none), .res 0 (.pushedMany 1)]

/-- C11, negative part: with latest loads, a range push may accept less than a push that is one atomic step would,
at any point during the call. -/
theorem spsc_bulk_push_not_atomic :
    ∃ C, MSteps (mach Nat cfg2) okSC Conf.initial bulkPushHistory C ∧ ¬ Linearizable (exactSpec Nat 2) bulkPushHistory := by
  have ht : (mach Nat cfg2).trace okSCb (fun _ => ()) Conf.initial bulkPushSched = some ((), bulkPushHistory) := by rfl
  obtain ⟨C, h1, -⟩ := Mach.trace_steps okSCb_spec ht
  exact ⟨C, h1, not_linearizable (exactNext 2) exactNext_spec (by rfl)⟩

/-- `push 1`; then `consume_all` reads both indices, and the producer pushes 2 and then finds the queue full before the
consumer goes on and takes one element only. -/
def bulkPopSched : List (Nat × Choice Nat) :=
  [(0, .call (.push 1)), (0, .go 0), (0, .go 0), (0, .go 0), (0, .go 0), (0, .go 0),
   (1, .call (.popMany false none)), (1, .go 1), (1, .go 0),
   (0, .call (.push 2)), (0, .go 1), (0, .go 0), (0, .go 0), (0, .go 0), (0, .go 0),
   (0, .call (.push 3)), (0, .go 2), (0, .go 0), (0, .go 0),
   (1, .go 0), (1, .go 0), (1, .go 0), (1, .go 0)]

def bulkPopHistory : History (Op Nat) (Ret Nat) :=
  [.inv 0 (.push 1), .res 0 (.pushed true), .inv 1 (.popMany false none), .inv 0 (.push 2), .res 0 (.pushed true),
   .inv 0 (.push 3), .res 0 (.pushed false), .res 1 (.poppedMany [1])]

theorem spsc_bulk_pop_not_atomic :
    ∃ C, MSteps (mach Nat cfg2) okSC Conf.initial bulkPopHistory C ∧ ¬ Linearizable (exactSpec Nat 2) bulkPopHistory := by
  have ht : (mach Nat cfg2).trace okSCb (fun _ => ()) Conf.initial bulkPopSched = some ((), bulkPopHistory) := by rfl
  obtain ⟨C, h1, -⟩ := Mach.trace_steps okSCb_spec ht
  exact ⟨C, h1, not_linearizable (exactNext 2) exactNext_spec (by rfl)⟩

/-- `spsc_linearizable` applied to these executions. -/
example : Linearizable (spec Nat 2) bulkPushHistory := by
  obtain ⟨C, h1, -⟩ := spsc_bulk_push_not_atomic
  exact spsc_linearizable cfg2_holds .fresh h1

/-! ## `empty()` does not license an unchecked `front()` (C08) -/

/-- C08, negative part: `empty()` loads the indices relaxed (spsc_queue.hpp:369). It returns false to the consumer, and
reading through the reference that `front()` then returns is a data race with the producer's construction of that very
element. -/
theorem spsc_empty_then_front_races :
    ∃ C, MSteps (mach Nat cfg2) (fun _ _ _ => True) Conf.initial
      [.inv 0 (.push 1), .res 0 (.pushed true), .inv 1 .isEmpty, .res 1 (.isEmpty false), .inv 1 (.front false)] C ∧
      C.pc 1 = .err ∧ ∀ t, t ≠ 1 → C.pc t = .idle := by
  let sched : List (Nat × Choice Nat) :=
    [(0, .call (.push 1)), (0, .go 0), (0, .go 0), (0, .go 0), (0, .go 0), (0, .go 0),
     (1, .call .isEmpty), (1, .go 1), (1, .go 0), (1, .go 0), (1, .call (.front false)), (1, .go 0), (1, .go 0)]
  have ht : ((mach Nat cfg2).runOk (fun _ _ _ => true) Conf.initial [] sched).map (fun x => (x.1.pc 1, x.1.pc 0, x.2)) =
      some (.err, .idle, [.inv 0 (.push 1), .res 0 (.pushed true), .inv 1 .isEmpty, .res 1 (.isEmpty false),
        .inv 1 (.front false)]) := by rfl
  simp only [Option.map_eq_some_iff, Prod.mk.injEq] at ht
  obtain ⟨⟨C, h⟩, h1, h2, h3, h4⟩ := ht
  have hx : MSteps (mach Nat cfg2) (fun _ _ _ => True) Conf.initial h C :=
    MSteps.runOk (fun _ _ _ _ => trivial) (.refl _) h1
  simp only at h2 h3 h4
  rw [← h4]
  refine ⟨C, hx, h2, fun t ht => ?_⟩
  have others : ∀ (C' : Conf Nat) h', MSteps (mach Nat cfg2) (fun _ _ _ => True) Conf.initial h' C' →
      ∀ t, C'.pc (t + 2) = .idle := by
    intro C' h' hx
    induction hx with
    | refl => intro t; rfl
    | @step h'' C' u ch s' p' e hx hs hok ih =>
      intro t
      by_cases hu : t + 2 = u
      · subst hu
        have hs : tstep cfg2 (t + 2) C'.s (C'.pc (t + 2)) ch = some (s', p', e) := hs
        rw [ih t] at hs
        cases ch <;> simp [tstep, start] at hs
      · simp only [upd_ne _ _ _ hu]; exact ih t
  match t with
  | 0 => exact h3
  | 1 => exact absurd rfl ht
  | t + 2 => exact others C h hx t

end Verif.Spsc
