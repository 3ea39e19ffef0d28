import Verif.Instant
import Verif.Spsc.Props

/-!
# `spsc_queue` is linearizable when loads return the latest store (C11)
-/

namespace Verif.Spsc
open Lin

variable {α : Type} {cfg : Cfg} {N : Nat} {C : Conf α} {h : History (Op α) (Ret α)}

/-- Loads return the latest store (sequential consistency), and the restrictions of `okSafe`. -/
def okSC (s : St α) (p : PC α) (ch : Choice α) : Prop :=
  okSafe s p ch ∧ (∀ j, ch = .go j → match p with
    | .push1 _ | .rng1 _ | .wav1 | .emp1 | .emp3 _ | .one1 | .bulk1 _ _ | .rav1 | .frt1 => j = s.wlast
    | .push2 _ _ _ | .rng2 _ _ | .wav2 _ | .emp2 _ | .one2 _ | .bulk2 _ _ _ | .rav2 _ | .frt2 _ | .frt3 => j = s.rlast
    | _ => True) ∧ ∀ j, ch = .swap j → j = s.rlast

/-- Status of the producer's call in the canonical object; `n` elements were accepted. -/
def StatP (cfg : Cfg) (n : Nat) (st : Status (Op α) (Ret α)) : PC α → Prop
  | .idle => st = .idle
  | .ret r => (∃ o, st = .done o r) ∨ ∃ o P, st = .pend o P ∧ P r
  | .push1 v | .push2 v _ _ | .push3 v _ _ | .push4 v _ => ∃ P, st = .pend (.push v) P
  | .rng1 vs | .rng2 vs _ => ∃ P, st = .pend (.pushMany vs) P
  | .rngCopy _ _ _ _ _ total _ | .rngStore total _ => ∃ vs P, st = .pend (.pushMany vs) P ∧ total <+: vs ∧
      (total = [] → vs = [])
  | .rngUnwind _ _ => ∃ vs P, st = .pend (.pushMany vs) P
  | .wav1 | .wav2 _ => ∃ P, st = .pend .writeAvail P
  | .emp1 | .emp2 _ => ∃ P, st = .pend .isEmpty P
  | .emp3 r => ∃ b, st = .done .isEmpty (.isEmpty b) ∧ ∀ w : SizeT, w.toNat = n % cfg.size.toNat → (w == r) = b
  | _ => False

/-- Status of the consumer's call. -/
def StatC (cfg : Cfg) (rel : Nat) (st : Status (Op α) (Ret α)) : PC α → Prop
  | .idle => st = .idle
  | .ret r => (∃ o, st = .done o r) ∨ ∃ o P, st = .pend o P ∧ P r
  | .one1 | .one3 _ | .one4 _ _ | .one5 _ _ => ∃ P, st = .pend .pop P
  | .one2 w => ∃ P, st = .pend .pop P ∧ (w.toNat = rel % cfg.size.toNat → P (.popped none))
  | .bulk1 copy lim => ∃ P, st = .pend (.popMany copy lim) P
  | .bulk2 copy lim w => ∃ P, st = .pend (.popMany copy lim) P ∧
      (w.toNat = rel % cfg.size.toNat → P (.poppedMany []))
  | .bulkRead copy _ rem rest outs _ => ∃ lim P, st = .pend (.popMany copy lim) P ∧
      ∀ l ∈ lim, outs.length + rem + rest ≤ l
  | .bulkDestroy copy _ rem rest outs _ => ∃ lim P, st = .pend (.popMany copy lim) P ∧ outs ≠ [] ∧
      ∀ l ∈ lim, outs.length + (rem - 1) + rest ≤ l
  | .bulkStore outs _ => ∃ copy lim P, st = .pend (.popMany copy lim) P ∧ (∀ l ∈ lim, outs.length ≤ l) ∧
      (outs = [] → lim = some 0)
  | .rav1 => ∃ P, st = .pend .readAvail P
  | .rav2 w => ∃ P, st = .pend .readAvail P ∧
      ∀ r, r.toNat = rel % cfg.size.toNat → P (.readAvail (readAvail w r cfg.size).toNat)
  | .emp1 => ∃ P, st = .pend .isEmpty P
  | .emp3 r => ∃ P, st = .pend .isEmpty P ∧ r.toNat = rel % cfg.size.toNat
  | .emp2 w => ∃ P, st = .pend .isEmpty P ∧ ∀ r, r.toNat = rel % cfg.size.toNat → P (.isEmpty (w == r))
  | .frt1 => ∃ P, st = .pend (.front true) P
  | .frt2 w => ∃ P, st = .pend (.front true) P ∧ (w.toNat = rel % cfg.size.toNat → P .asserted)
  | .frt3 | .frt4 _ => ∃ b P, st = .pend (.front b) P
  | _ => False

/-- Simulation relation: the queue contains the accepted elements that were not released. -/
structure SR (cfg : Cfg) (N : Nat) (C : Conf α) (c : CState (spec α N)) : Prop where
  inv : Inv cfg C
  st : c.st = C.s.acc.drop C.s.rel
  pr : StatP cfg C.s.acc.length (c.status 0) (C.pc 0)
  co : StatC cfg C.s.rel (c.status 1) (C.pc 1)
  o : ∀ t, c.status (t + 2) = .idle

section
variable {c : CState (spec α N)} {ch : Choice α} {s' : St α} {p' : PC α} {e : Option (Event (Op α) (Ret α))}

theorem SR.closeP (hR : SR cfg N C c) (hs : tstep cfg 0 C.s (C.pc 0) ch = some (s', p', e))
    (hok : okSafe C.s (C.pc 0) ch) {c' : CState (spec α N)} (hst : c'.st = s'.acc.drop s'.rel)
    (ho : ∀ t, t ≠ 0 → c'.status t = c.status t) (hp : StatP cfg s'.acc.length (c'.status 0) p') (hm : CMove (spec α N) c e c') :
    ∃ c', SR cfg N ⟨s', upd C.pc 0 p'⟩ c' ∧ CMove (spec α N) c e c' := by
  have he := hR.inv.ev0 hs
  refine ⟨c', ⟨hR.inv.step hs hok, hst, by simpa using hp, ?_, fun t => ?_⟩, hm⟩
  · simp only [upd_ne _ _ _ (show (1 : Nat) ≠ 0 by omega)]
    rw [ho 1 (by omega), he.rel]; exact hR.co
  · rw [ho _ (by omega)]; exact hR.o t

theorem SR.quietP (hR : SR cfg N C c) (hs : tstep cfg 0 C.s (C.pc 0) ch = some (s', p', none))
    (hok : okSafe C.s (C.pc 0) ch) (ha : s'.acc = C.s.acc) (hp : StatP cfg C.s.acc.length (c.status 0) p') :
    ∃ c', SR cfg N ⟨s', upd C.pc 0 p'⟩ c' ∧ CMove (spec α N) c none c' :=
  hR.closeP hs hok (c' := c) (by rw [hR.st, ha, (hR.inv.ev0 hs).rel]) (fun _ _ => rfl) (by rw [ha]; exact hp) (.stay _)

theorem SR.linP (hR : SR cfg N C c) (hs : tstep cfg 0 C.s (C.pc 0) ch = some (s', .ret r, none))
    (hok : okSafe C.s (C.pc 0) ch) {o P} (hst : c.status 0 = .pend o P)
    (hsp : specStep N (C.s.acc.drop C.s.rel) o r (s'.acc.drop C.s.rel)) :
    ∃ c', SR cfg N ⟨s', upd C.pc 0 (.ret r)⟩ c' ∧ CMove (spec α N) c none c' := by
  refine hR.closeP hs hok (c' := ⟨s'.acc.drop C.s.rel, upd c.status 0 (.done o r)⟩) ?_ ?_ ?_ ?_
  · rw [(hR.inv.ev0 hs).rel]
  · intro t ht; simp [upd_ne _ _ _ ht]
  · simp only [upd_self]; exact .inl ⟨o, rfl⟩
  · refine .lin hst ?_
    show specStep N c.st o r _
    rw [hR.st]; exact hsp

theorem SR.closeC (hR : SR cfg N C c) (hs : tstep cfg 1 C.s (C.pc 1) ch = some (s', p', e))
    (hok : okSafe C.s (C.pc 1) ch) {c' : CState (spec α N)} (hst : c'.st = C.s.acc.drop s'.rel)
    (ho : ∀ t, t ≠ 1 → c'.status t = c.status t) (hp : StatC cfg s'.rel (c'.status 1) p')
    (hm : CMove (spec α N) c e c') :
    ∃ c', SR cfg N ⟨s', upd C.pc 1 p'⟩ c' ∧ CMove (spec α N) c e c' := by
  have he := hR.inv.ev1 hs
  refine ⟨c', ⟨hR.inv.step hs hok, by rw [hst, he.acc], ?_, by simpa using hp, fun t => ?_⟩, hm⟩
  · simp only [upd_ne _ _ _ (show (0 : Nat) ≠ 1 by omega)]
    rw [ho 0 (by omega), he.acc]; exact hR.pr
  · rw [ho _ (by omega)]; exact hR.o t

theorem SR.quietC (hR : SR cfg N C c) (hs : tstep cfg 1 C.s (C.pc 1) ch = some (s', p', none))
    (hok : okSafe C.s (C.pc 1) ch) (hr : s'.rel = C.s.rel) (hp : StatC cfg C.s.rel (c.status 1) p') :
    ∃ c', SR cfg N ⟨s', upd C.pc 1 p'⟩ c' ∧ CMove (spec α N) c none c' :=
  hR.closeC hs hok (c' := c) (by rw [hR.st, hr]) (fun _ _ => rfl) (by rw [hr]; exact hp) (.stay _)

theorem SR.linC (hR : SR cfg N C c) (hs : tstep cfg 1 C.s (C.pc 1) ch = some (s', .ret r, none))
    (hok : okSafe C.s (C.pc 1) ch) {o P} (hst : c.status 1 = .pend o P)
    (hsp : specStep N (C.s.acc.drop C.s.rel) o r (C.s.acc.drop s'.rel)) :
    ∃ c', SR cfg N ⟨s', upd C.pc 1 (.ret r)⟩ c' ∧ CMove (spec α N) c none c' := by
  refine hR.closeC hs hok (c' := ⟨C.s.acc.drop s'.rel, upd c.status 1 (.done o r)⟩) rfl ?_ ?_ ?_
  · intro t ht; simp [upd_ne _ _ _ ht]
  · simp only [upd_self]; exact .inl ⟨o, rfl⟩
  · refine .lin hst ?_
    show specStep N c.st o r _
    rw [hR.st]; exact hsp

/-- An observation of the consumer's call without effect. -/
theorem SR.obsC (hR : SR cfg N C c) (hs : tstep cfg 1 C.s (C.pc 1) ch = some (s', p', none))
    (hok : okSafe C.s (C.pc 1) ch) (hr : s'.rel = C.s.rel) {o P} (hst : c.status 1 = .pend o P) {r : Ret α}
    (hsp : specStep N (C.s.acc.drop C.s.rel) o r (C.s.acc.drop C.s.rel))
    (hp : ∀ Q : Ret α → Prop, Q r → StatC cfg C.s.rel (.pend o Q) p') :
    ∃ c', SR cfg N ⟨s', upd C.pc 1 p'⟩ c' ∧ CMove (spec α N) c none c' := by
  refine hR.closeC hs hok (c' := ⟨c.st, upd c.status 1 (.pend o fun r' => P r' ∨ r' = r)⟩) ?_ ?_ ?_ ?_
  · rw [hr]; exact hR.st
  · intro t ht; simp [upd_ne _ _ _ ht]
  · simp only [upd_self]; rw [hr]; exact hp _ (.inr rfl)
  · refine .obs hst ?_
    show specStep N c.st o r c.st
    rw [hR.st]; exact hsp

end

theorem StatP.rngNext {st : Status (Op α) (Ret α)} {a b : Nat} {xs rest : List α} {second : Bool} {total : List α}
    {nw : SizeT} {n : Nat} (h : StatP cfg n st (.rngStore total nw)) : StatP cfg n st (rngNext a b xs rest second total nw) := by
  unfold Spsc.rngNext
  split
  · split
    · exact h
    · exact h
  · exact h

theorem SR.stepP {c : CState (spec α N)} (hN : Holds cfg N) (hR : SR cfg N C c) {ch : Choice α} {s' p' e}
    (hs : tstep cfg 0 C.s (C.pc 0) ch = some (s', p', e)) (hok : okSC C.s (C.pc 0) ch) :
    ∃ c', SR cfg N ⟨s', upd C.pc 0 p'⟩ c' ∧ CMove (spec α N) c e c' := by
  have hsize := hN.size
  have hs0 := hs
  have hok0 := hok.1
  obtain ⟨-, hlat⟩ := hok
  obtain ⟨pre, gone, handed, h, hP, hC, hI⟩ := hR.inv
  have hst := hR.pr
  generalize hp : C.pc 0 = p at hs hP hst hlat
  have hpos := h.pos
  have hhl := h.hl
  have hroom := h.room
  have hlen : (C.s.acc.drop C.s.rel).length = C.s.acc.length - C.s.rel := List.length_drop ..
  cases ch with
  | call o =>
    cases p <;> simp only [tstep, Option.map_eq_some_iff, reduceCtorEq] at hs
    obtain ⟨p1, h1, h2⟩ := hs
    obtain ⟨rfl, rfl, rfl⟩ := Prod.mk.injEq .. ▸ h2
    refine hR.closeP hs0 hok0 (c' := ⟨c.st, upd c.status 0 (.pend o fun _ => False)⟩) hR.st
      (fun t ht => by simp [upd_ne _ _ _ ht]) ?_ (.inv hst)
    simp only [upd_self]
    cases o <;> simp only [start, Option.some.injEq, reduceCtorEq] at h1 <;> subst h1 <;> exact ⟨_, rfl⟩
  | sync =>
    obtain ⟨rfl, rfl, rfl⟩ := tau_inv hs
    exact hR.quietP hs0 hok0 rfl hst
  | swap j =>
    cases p <;> simp only [tstep, reduceCtorEq] at hs
    obtain ⟨P, h0⟩ := hst
    simp only [Option.bind_eq_some_iff, Prod.exists] at hs
    obtain ⟨s1, r, h1, hs⟩ := hs
    obtain ⟨vv, rfl, h2, h3, h4, h5, h6, h7, h8, h9, h10⟩ := h.loadRP h1
    obtain ⟨rfl, rfl, rfl⟩ := tau_inv hs
    replace hlat : j = C.s.rlast := hlat.2 j rfl
    subst hlat
    have h7' : C.s.rel = (C.s.R C.s.rlast).cnt := rfl
    refine hR.closeP hs0 hok0 (c' := ⟨c.st, upd c.status 0 (.done .isEmpty (.isEmpty (decide (C.s.acc.length = C.s.rel))))⟩)
      hR.st (fun t ht => by simp [upd_ne _ _ _ ht]) ?_ (.lin h0 ?_)
    · simp only [upd_self]
      refine ⟨_, rfl, fun w hw => ?_⟩
      rw [Bool.eq_iff_iff, index_eq_iff hw h6 (by show (C.s.R C.s.rlast).cnt ≤ C.s.acc.length; omega) h8]
      simp [h7']
    · show specStep N c.st .isEmpty (.isEmpty (decide (C.s.acc.length = C.s.rel))) c.st
      rw [hR.st]
      exact ⟨by simp only [decide_eq_true_eq, List.drop_eq_nil_iff]; omega, rfl⟩
  | throw =>
    cases p <;> simp only [tstep, reduceCtorEq] at hs
    case push3 =>
      obtain ⟨rfl, rfl, rfl⟩ := tau_inv hs
      obtain ⟨P, h1⟩ := hst
      exact hR.linP hs0 hok0 h1 rfl
    case rngCopy =>
      obtain ⟨rfl, rfl, rfl⟩ := tau_inv hs
      obtain ⟨vs, P, h1, _⟩ := hst
      split at hs0
      · rename_i h2
        rw [if_pos h2]
        exact hR.linP hs0 hok0 h1 rfl
      · rename_i h2
        rw [if_neg h2]
        exact hR.quietP hs0 hok0 rfl ⟨vs, P, h1⟩
    all_goals exact hP.elim
  | go j =>
    replace hlat := hlat.1 j rfl
    cases p <;> simp only [tstep] at hs
    case idle => simp at hs
    case push1 v =>
      simp only [Option.bind_eq_some_iff, Prod.exists] at hs
      obtain ⟨s1, w, h1, hs⟩ := hs
      obtain ⟨rfl, hw⟩ := h.loadWP h1
      obtain ⟨nx, hn1, _, hn2, _⟩ := nextIndex_exact (arg := w) (max := cfg.size)
        (by rw [hw]; exact Nat.mod_lt _ h.pos)
      rw [hn1] at hs
      obtain ⟨rfl, rfl, rfl⟩ := tau_inv hs
      exact hR.quietP hs0 hok0 rfl hst
    case push2 v w nx =>
      obtain ⟨P, h0⟩ := hst
      obtain ⟨rfl, hw, hn⟩ := hP
      simp only [Option.bind_eq_some_iff, Prod.exists] at hs
      obtain ⟨s1, r, h1, hs⟩ := hs
      obtain ⟨vv, rfl, h2, h3, h4, h5, h6, h7, h8, h9, h10⟩ := h.loadRP h1
      obtain ⟨rfl, rfl, rfl⟩ := tau_inv hs
      replace hlat : j = C.s.rlast := hlat
      subst hlat
      split at hs0
      · rename_i heq
        rw [if_pos heq]
        refine hR.linP hs0 hok0 h0 ⟨?_, rfl⟩
        have h7 : C.s.rel = (C.s.R C.s.rlast).cnt := rfl
        have := mod_inj (n := cfg.size.toNat) (D := (C.s.R C.s.rlast).cnt + 1) (q := C.s.acc.length + 1)
          (q' := (C.s.R C.s.rlast).cnt + cfg.size.toNat)
          (by omega) (by omega) (by omega) (by omega) (by rw [← hn, heq, h6, Nat.add_mod_right])
        omega
      · rename_i hne
        rw [if_neg hne]
        exact hR.quietP hs0 hok0 rfl ⟨P, h0⟩
    case push3 v w nx =>
      obtain ⟨rfl, hw, hn, hf⟩ := hP
      obtain ⟨s1, h1, h2, h3, _⟩ := h.construct v hf
      simp only [List.length_nil, Nat.add_zero] at h1
      rw [hw, h1] at hs
      obtain ⟨rfl, rfl, rfl⟩ := tau_inv hs
      exact hR.quietP hs0 hok0 h3 hst
    case push4 v nx =>
      obtain ⟨P, h0⟩ := hst
      obtain ⟨rfl, hn⟩ := hP
      obtain ⟨rfl, rfl, rfl⟩ := tau_inv hs
      refine hR.linP hs0 hok0 h0 ⟨?_, ?_⟩
      · simp only [List.length_singleton] at hroom; omega
      · show (C.s.acc ++ [v]).drop _ = _
        rw [List.drop_append_of_le_length (by omega)]
    case rng1 vs =>
      simp only [Option.bind_eq_some_iff, Prod.exists] at hs
      obtain ⟨s1, w, h1, hs⟩ := hs
      obtain ⟨rfl, hw⟩ := h.loadWP h1
      obtain ⟨rfl, rfl, rfl⟩ := tau_inv hs
      exact hR.quietP hs0 hok0 rfl hst
    case rng2 vs w =>
      obtain ⟨P, h0⟩ := hst
      obtain ⟨rfl, hw⟩ := hP
      simp only [Option.bind_eq_some_iff, Prod.exists] at hs
      obtain ⟨s1, r, h1, hs⟩ := hs
      obtain ⟨vv, rfl, h2, h3, h4, h5, h6, h7, h8, h9, h10⟩ := h.loadRP h1
      obtain ⟨rfl, rfl, rfl⟩ := tau_inv hs
      replace hlat : j = C.s.rlast := hlat
      subst hlat
      have h7' : C.s.rel = (C.s.R C.s.rlast).cnt := rfl
      obtain ⟨-, g1, g2⟩ := rngPlan_local h2 (vs := vs) hw h5 h6 h7 h8 (h9 rfl)
      rcases rngPlan_shape cfg vs w r with ⟨x, hx⟩ | ⟨a, b, xs, rest, second, total, nw, hx, hy⟩
      · obtain ⟨rfl, hfull⟩ := g2 x hx
        have hfull : C.s.acc.length + 1 = (C.s.R C.s.rlast).cnt + cfg.size.toNat := hfull
        rw [hx] at hs0 ⊢
        refine hR.linP hs0 hok0 h0 ⟨Nat.zero_le _, by omega, fun _ => .inr (by omega), by simp⟩
      · have htot : total = vs.take ((C.s.R C.s.rlast).cnt + cfg.size.toNat - 1 - C.s.acc.length) := g1 total nw hy
        refine hR.quietP hs0 hok0 rfl ?_
        rw [hx]
        refine StatP.rngNext ⟨vs, P, h0, by rw [htot]; exact List.take_prefix _ _, fun hz => ?_⟩
        rw [hz] at htot
        rcases List.take_eq_nil_iff.1 htot.symm with h11 | h11
        · exfalso
          have hav := writeAvail_exact (w := w) (d := C.s.acc.length - (C.s.R C.s.rlast).cnt) (by omega) h6
            (by rw [hw]; congr 1; omega)
          have h12 : writeAvail w r cfg.size = 0 := BitVec.eq_of_toNat_eq (by rw [hav]; simp; omega)
          have h13 : rngPlan cfg vs w r = .ret (.pushedMany 0) := by simp [rngPlan, h12]
          rw [h13] at hy
          rcases hy with ⟨_, _, _, _, _, hy⟩ | hy <;> cases hy
        · exact h11
    case rngCopy start dst xs rest second total newW =>
      obtain ⟨h1, done, rfl, h3⟩ := hP
      cases xs with
      | nil => exact absurd rfl h1
      | cons x xs =>
        obtain ⟨hd, _⟩ := h3.hdst h1
        have hf : Free cfg C.s ((done.map some).length + 1) := h3.free.mono (by rw [h3.tot]; simp)
        obtain ⟨s1, k1, k2, k3, _⟩ := h.construct x hf
        simp only [List.length_map] at k1
        simp only [hd, k1, orErr] at hs
        obtain ⟨rfl, rfl, rfl⟩ := tau_inv hs
        exact hR.quietP hs0 hok0 k3 (StatP.rngNext (nw := newW) hst)
    case rngUnwind i stop =>
      obtain ⟨vs, P, h0⟩ := hst
      obtain ⟨d, xs, g1, rfl, hi, hst, hle, hf⟩ := hP
      cases xs with
      | nil => exact absurd rfl g1
      | cons x xs =>
        simp only [List.map_cons] at h hf
        obtain ⟨s1, k1, k2, k3, _⟩ := h.destroyP hf
        have hidx : (C.s.acc.length + (List.replicate d (none : Option α)).length) % cfg.size.toNat = i := by
          have := mod_add (c := C.s.acc.length) (d := d) (n := cfg.size.toNat) (by simp at hst; omega) h.pos
          simp only [List.length_replicate]
          rw [this, if_pos (by simp at hst; omega)]; exact hi.symm
        rw [hidx] at k1
        rw [k1] at hs
        obtain ⟨rfl, rfl, rfl⟩ := tau_inv hs
        split at hs0
        · rename_i h2
          rw [if_pos h2]
          refine hR.linP hs0 hok0 h0 ?_
          show s'.acc.drop _ = _
          rw [k3]
        · rename_i h2
          rw [if_neg h2]
          exact hR.quietP hs0 hok0 k3 ⟨vs, P, h0⟩
    case rngStore total newW =>
      obtain ⟨vs, P, h0, h1, h2⟩ := hst
      obtain ⟨rfl, hn⟩ := hP
      obtain ⟨rfl, rfl, rfl⟩ := tau_inv hs
      simp only [List.length_map] at hroom
      refine hR.linP hs0 hok0 h0 ⟨h1.length_le, by omega, fun h3 => .inl (h2 (List.length_eq_zero_iff.1 h3)), ?_⟩
      show (C.s.acc ++ total).drop _ = _
      rw [List.drop_append_of_le_length (by omega), ← List.prefix_iff_eq_take.1 h1]
    case wav1 | emp1 =>
      simp only [Option.bind_eq_some_iff, Prod.exists] at hs
      obtain ⟨s1, w, h1, hs⟩ := hs
      obtain ⟨rfl, hw⟩ := h.loadWP h1
      obtain ⟨rfl, rfl, rfl⟩ := tau_inv hs
      exact hR.quietP hs0 hok0 rfl hst
    case wav2 w =>
      obtain ⟨P, h0⟩ := hst
      obtain ⟨rfl, hw⟩ := hP
      simp only [Option.bind_eq_some_iff, Prod.exists] at hs
      obtain ⟨s1, r, h1, hs⟩ := hs
      obtain ⟨vv, rfl, h2, h3, h4, h5, h6, h7, h8, h9, h10⟩ := h.loadRP h1
      obtain ⟨rfl, rfl, rfl⟩ := tau_inv hs
      replace hlat : j = C.s.rlast := hlat
      subst hlat
      have h7' : C.s.rel = (C.s.R C.s.rlast).cnt := rfl
      have hav := writeAvail_exact (w := w) (d := C.s.acc.length - (C.s.R C.s.rlast).cnt) (by omega) h6
        (by rw [hw]; congr 1; omega)
      exact hR.linP hs0 hok0 h0 ⟨by omega, rfl⟩
    case emp2 w =>
      obtain ⟨P, h0⟩ := hst
      obtain ⟨rfl, hw⟩ := hP
      simp only [Option.bind_eq_some_iff, Prod.exists] at hs
      obtain ⟨s1, r, h1, hs⟩ := hs
      obtain ⟨vv, rfl, h2, h3, h4, h5, h6, h7, h8, h9, h10⟩ := h.loadRP h1
      obtain ⟨rfl, rfl, rfl⟩ := tau_inv hs
      replace hlat : j = C.s.rlast := hlat
      subst hlat
      have h7' : C.s.rel = (C.s.R C.s.rlast).cnt := rfl
      refine hR.linP hs0 hok0 h0 ⟨?_, rfl⟩
      rw [index_eq_iff hw h6 (by omega) h8, List.drop_eq_nil_iff]
      omega
    case emp3 r =>
      obtain ⟨b, h0, h2⟩ := hst
      simp only [Option.bind_eq_some_iff, Prod.exists] at hs
      obtain ⟨s1, w, h1, hs⟩ := hs
      obtain ⟨rfl, hw⟩ := h.loadWP h1
      obtain ⟨rfl, rfl, rfl⟩ := tau_inv hs
      exact hR.quietP hs0 hok0 rfl (.inl ⟨_, by rw [h2 w hw]; exact h0⟩)
    case ret r =>
      simp only [Option.some.injEq, Prod.mk.injEq] at hs
      obtain ⟨rfl, rfl, rfl⟩ := hs
      refine hR.closeP hs0 hok0 (c' := ⟨c.st, upd c.status 0 .idle⟩) hR.st
        (fun t ht => by simp [upd_ne _ _ _ ht]) (by simp only [upd_self]; rfl) ?_
      rcases hst with ⟨o, h1⟩ | ⟨o, P, h1, h2⟩
      · exact .res h1
      · exact .resObs h1 h2
    all_goals exact hP.elim

theorem StatC.bulkNext {st : Status (Op α) (Ret α)} {rel i rem rest : Nat} {copy : Bool} {outs : List α} {nr : SizeT}
    {lim P} (h : st = .pend (.popMany copy lim) P) (h1 : ∀ l ∈ lim, outs.length + rem + rest ≤ l)
    (h2 : outs ≠ []) : StatC cfg rel st (bulkNext copy i rem rest outs nr) := by
  unfold Spsc.bulkNext
  split
  · rename_i h3
    subst h3
    split
    · rename_i h3
      subst h3
      exact ⟨copy, lim, P, h, by simpa using h1, fun h => absurd h h2⟩
    · exact ⟨lim, P, h, by simpa using h1⟩
  · exact ⟨lim, P, h, h1⟩

theorem SR.stepC {c : CState (spec α N)} (hN : Holds cfg N) (hR : SR cfg N C c) {ch : Choice α} {s' p' e}
    (hs : tstep cfg 1 C.s (C.pc 1) ch = some (s', p', e)) (hok : okSC C.s (C.pc 1) ch) :
    ∃ c', SR cfg N ⟨s', upd C.pc 1 p'⟩ c' ∧ CMove (spec α N) c e c' := by
  have hsize := hN.size
  have hs0 := hs
  have hok0 := hok.1
  obtain ⟨hok1, hlat⟩ := hok
  obtain ⟨pre, gone, handed, h, hP, hC, hI⟩ := hR.inv
  have hst := hR.co
  generalize hp : C.pc 1 = p at hs hC hst hlat hok1
  have hpos := h.pos
  have hhl := h.hl
  have hroom := h.room
  have hlen : (C.s.acc.drop C.s.rel).length = C.s.acc.length - C.s.rel := List.length_drop ..
  cases ch with
  | call o =>
    cases p <;> simp only [tstep, Option.map_eq_some_iff, reduceCtorEq] at hs
    obtain ⟨p1, h1, h2⟩ := hs
    obtain ⟨rfl, rfl, rfl⟩ := Prod.mk.injEq .. ▸ h2
    refine hR.closeC hs0 hok0 (c' := ⟨c.st, upd c.status 1 (.pend o fun _ => False)⟩) hR.st
      (fun t ht => by simp [upd_ne _ _ _ ht]) ?_ (.inv hst)
    simp only [upd_self]
    cases o <;> simp only [start, Option.some.injEq, reduceCtorEq] at h1
    case front b =>
      cases b
      · subst h1; exact ⟨_, _, rfl⟩
      · subst h1; exact ⟨_, rfl⟩
    all_goals subst h1; exact ⟨_, rfl⟩
  | sync =>
    obtain ⟨rfl, rfl, rfl⟩ := tau_inv hs
    exact hR.quietC hs0 hok0 rfl hst
  | swap j =>
    cases p <;> simp only [tstep, reduceCtorEq] at hs
    obtain ⟨P, h0⟩ := hst
    simp only [Option.bind_eq_some_iff, Prod.exists] at hs
    obtain ⟨s1, r, h1, hs⟩ := hs
    obtain ⟨rfl, hr⟩ := h.loadRC h1
    obtain ⟨rfl, rfl, rfl⟩ := tau_inv hs
    exact hR.quietC hs0 hok0 rfl ⟨P, h0, hr⟩
  | throw =>
    cases p <;> simp only [tstep, reduceCtorEq] at hs
    case one3 =>
      obtain ⟨P, h0⟩ := hst
      split at hs
      · rename_i hx
        obtain ⟨rfl, rfl, hr, hh⟩ := hC
        obtain ⟨s1, v, h1, h2, h3, h4⟩ := h.readC hh
        rw [Nat.add_zero, ← hr] at h1
        rw [h1] at hx; cases hx
      · rename_i hx
        obtain ⟨rfl, rfl, rfl⟩ := tau_inv hs
        have h2 := readC_ev hx
        exact hR.linC hs0 hok0 h0 (by rw [h2.2.1]; rfl)
    case bulkRead copy i rem rest outs newR =>
      obtain ⟨lim, P, h0, -⟩ := hst
      split at hs
      · rename_i hx
        obtain ⟨rfl, rfl, hrem, hb, ho⟩ := hC
        obtain ⟨s1, v, h1, h2, h3, h4⟩ := h.readC (hb.hav.mono (by omega))
        rw [← (hb.pos hrem).1] at h1
        rw [h1] at hx; cases hx
      · rename_i hx
        obtain ⟨rfl, rfl, rfl⟩ := tau_inv hs
        have h2 := readC_ev hx
        exact hR.linC hs0 hok0 h0 (by rw [h2.2.1]; rfl)
    all_goals exact hC.elim
  | go j =>
    replace hlat := hlat.1 j rfl
    have lw : ∀ {b w s1}, C.s.loadWC b j = some (s1, w) → j = C.s.wlast →
        w.toNat = C.s.acc.length % cfg.size.toNat ∧ s1.rel = C.s.rel := by
      intro b w s1 h1 hj
      obtain ⟨vv, rfl, h2, h3, h4, h5, h6, h7, h8, h9, h10⟩ := h.loadWC h1
      subst hj
      rw [h.wcnt] at h6
      exact ⟨h6, rfl⟩
    have eqv : ∀ {w r : SizeT}, w.toNat = C.s.acc.length % cfg.size.toNat → r.toNat = C.s.rel % cfg.size.toNat →
        ((w == r) = true ↔ C.s.acc.length = C.s.rel) := by
      intro w r hw hr
      exact index_eq_iff hw hr (by omega) (by omega)
    have emp : ∀ {w : SizeT}, w.toNat = C.s.acc.length % cfg.size.toNat → w.toNat = C.s.rel % cfg.size.toNat →
        C.s.acc.drop C.s.rel = [] := by
      intro w h1 h2
      have := (eqv h1 h2).1 (by simp)
      rw [List.drop_eq_nil_iff]; omega
    cases p <;> simp only [tstep] at hs
    case idle => simp at hs
    case one1 =>
      simp only [Option.bind_eq_some_iff, Prod.exists] at hs
      obtain ⟨s1, w, h1, hs⟩ := hs
      obtain ⟨rfl, rfl, rfl⟩ := tau_inv hs
      obtain ⟨P, h0⟩ := hst
      obtain ⟨hw, hr⟩ := lw h1 hlat
      by_cases he : w.toNat = C.s.rel % cfg.size.toNat
      · exact hR.obsC hs0 hok0 hr h0 (r := .popped none) ⟨emp hw he, emp hw he⟩ (fun Q hQ => ⟨Q, rfl, fun _ => hQ⟩)
      · exact hR.quietC hs0 hok0 hr ⟨P, h0, fun h => absurd h he⟩
    case bulk1 copy lim =>
      simp only [Option.bind_eq_some_iff, Prod.exists] at hs
      obtain ⟨s1, w, h1, hs⟩ := hs
      obtain ⟨rfl, rfl, rfl⟩ := tau_inv hs
      obtain ⟨P, h0⟩ := hst
      obtain ⟨hw, hr⟩ := lw h1 hlat
      by_cases he : w.toNat = C.s.rel % cfg.size.toNat
      · exact hR.obsC hs0 hok0 hr h0 (r := .poppedMany []) ⟨rfl, by simp, fun _ => .inl (emp hw he)⟩
          (fun Q hQ => ⟨Q, rfl, fun _ => hQ⟩)
      · exact hR.quietC hs0 hok0 hr ⟨P, h0, fun h => absurd h he⟩
    case rav1 =>
      simp only [Option.bind_eq_some_iff, Prod.exists] at hs
      obtain ⟨s1, w, h1, hs⟩ := hs
      obtain ⟨rfl, rfl, rfl⟩ := tau_inv hs
      obtain ⟨P, h0⟩ := hst
      obtain ⟨hw, hr⟩ := lw h1 hlat
      refine hR.obsC hs0 hok0 hr h0 (r := .readAvail (C.s.acc.length - C.s.rel)) ⟨hlen.symm, rfl⟩
        (fun Q hQ => ⟨Q, rfl, fun r hr => ?_⟩)
      rw [readAvail_exact (c := C.s.rel) (d := C.s.acc.length - C.s.rel) (by omega) hr (by rw [hw]; congr 1; omega)]
      exact hQ
    case emp1 =>
      simp only [Option.bind_eq_some_iff, Prod.exists] at hs
      obtain ⟨s1, w, h1, hs⟩ := hs
      obtain ⟨rfl, rfl, rfl⟩ := tau_inv hs
      obtain ⟨P, h0⟩ := hst
      obtain ⟨hw, hr⟩ := lw h1 hlat
      refine hR.obsC hs0 hok0 hr h0 (r := .isEmpty (decide (C.s.acc.length = C.s.rel))) ⟨?_, rfl⟩
        (fun Q hQ => ⟨Q, rfl, fun r hr => ?_⟩)
      · simp only [decide_eq_true_eq, List.drop_eq_nil_iff]; omega
      · have h3 : (w == r) = decide (C.s.acc.length = C.s.rel) := by
          rw [Bool.eq_iff_iff, eqv hw hr]; simp
        rw [h3]; exact hQ
    case frt1 =>
      simp only [Option.bind_eq_some_iff, Prod.exists] at hs
      obtain ⟨s1, w, h1, hs⟩ := hs
      obtain ⟨rfl, rfl, rfl⟩ := tau_inv hs
      obtain ⟨P, h0⟩ := hst
      obtain ⟨hw, hr⟩ := lw h1 hlat
      by_cases he : w.toNat = C.s.rel % cfg.size.toNat
      · exact hR.obsC hs0 hok0 hr h0 (r := .asserted) ⟨emp hw he, rfl⟩ (fun Q hQ => ⟨Q, rfl, fun _ => hQ⟩)
      · exact hR.quietC hs0 hok0 hr ⟨P, h0, fun h => absurd h he⟩
    case one2 w =>
      simp only [Option.bind_eq_some_iff, Prod.exists] at hs
      obtain ⟨s1, r, h1, hs⟩ := hs
      obtain ⟨rfl, hr⟩ := h.loadRC h1
      obtain ⟨rfl, rfl, rfl⟩ := tau_inv hs
      obtain ⟨P, h0, h2⟩ := hst
      refine hR.quietC hs0 hok0 rfl ?_
      split
      · rename_i heq
        subst heq
        exact .inr ⟨_, P, h0, h2 hr⟩
      · exact ⟨P, h0⟩
    case one3 r =>
      obtain ⟨rfl, rfl, hr, hh⟩ := hC
      obtain ⟨s1, v, h1, h2, h3, h4⟩ := h.readC hh
      rw [Nat.add_zero, ← hr] at h1
      simp only [h1] at hs
      obtain ⟨rfl, rfl, rfl⟩ := tau_inv hs
      have h8 := readC_ev h1
      exact hR.quietC hs0 hok0 h8.2.1 hst
    case one4 v r =>
      obtain ⟨rfl, rfl, hr, hh, ho⟩ := hC
      obtain ⟨s1, h1, _⟩ := h.destroyC hh (by omega)
      rw [Nat.add_zero, ← hr] at h1
      simp only [h1, orErr] at hs
      obtain ⟨rfl, rfl, rfl⟩ := tau_inv hs
      have h8 := destroyC_ev h1
      exact hR.quietC hs0 hok0 h8.2.1 hst
    case one5 v r =>
      obtain ⟨P, h0⟩ := hst
      obtain ⟨rfl, rfl, hr, ho⟩ := hC
      obtain ⟨nx, hn1, _⟩ := nextIndex_exact (arg := r) (max := cfg.size)
        (by rw [hr]; exact Nat.mod_lt _ h.pos)
      rw [hn1] at hs
      obtain ⟨rfl, rfl, rfl⟩ := tau_inv hs
      refine hR.linC hs0 hok0 h0 ?_
      have h1 : (C.s.storeR nx 1).rel = C.s.rel + 1 := by
        show (upd _ _ _ _ : Msg).cnt = _; rw [show (C.s.storeR nx 1).rlast = C.s.rlast + 1 from rfl, upd_self]; rfl
      rw [h1]
      obtain ⟨l, hl⟩ := ho
      show C.s.acc.drop C.s.rel = v :: C.s.acc.drop (C.s.rel + 1)
      rw [← List.drop_drop, ← hl]; rfl
    case bulk2 copy lim w =>
      obtain ⟨rfl, rfl, i, i2, i3, i4, i5⟩ := hC
      simp only [Option.bind_eq_some_iff, Prod.exists] at hs
      obtain ⟨s1, r, h1, hs⟩ := hs
      obtain ⟨rfl, hr⟩ := h.loadRC h1
      obtain ⟨rfl, rfl, rfl⟩ := tau_inv hs
      obtain ⟨P, h0, h2⟩ := hst
      obtain ⟨-, g1, g2, g3⟩ := bulkPlan_local (copy := copy) (lim := lim) h hr i2 i3 i4 (i5 rfl)
      refine hR.quietC hs0 hok0 rfl ?_
      rcases bulkPlan_shape (α := α) cfg copy lim w r with ⟨x, hx⟩ | ⟨i', rem, rest, nR, hx⟩ | ⟨nR, hx⟩
      · obtain ⟨rfl, h3⟩ := g1 x hx
        rw [hx]
        exact .inr ⟨_, P, h0, h2 (by rw [i3, h3])⟩
      · obtain ⟨-, -, h3⟩ := g2 _ _ _ _ _ _ hx
        rw [hx]
        refine ⟨lim, P, h0, ?_⟩
        rintro l ⟨⟩
        simp only [atMost] at h3
        simp only [List.length_nil]
        omega
      · obtain ⟨-, rfl⟩ := g3 _ _ hx
        rw [hx]
        exact ⟨copy, _, P, h0, by simp, fun _ => rfl⟩
    case bulkRead copy i rem rest outs newR =>
      obtain ⟨lim, P, h0, h5⟩ := hst
      obtain ⟨rfl, rfl, hrem, hb, ho⟩ := hC
      have hh : Have C.s (outs.length + 1) := hb.hav.mono (by omega)
      obtain ⟨s1, v, h1, h2, h3, h4⟩ := h.readC hh
      rw [← (hb.pos hrem).1] at h1
      simp only [h1] at hs
      obtain ⟨rfl, rfl, rfl⟩ := tau_inv hs
      have h10 := readC_ev h1
      refine hR.quietC hs0 hok0 h10.2.1 ?_
      split
      · refine StatC.bulkNext h0 (fun l hl => ?_) (by simp)
        have := h5 l hl
        simp only [List.length_append, List.length_singleton]; omega
      · refine ⟨lim, P, h0, by simp, fun l hl => ?_⟩
        have := h5 l hl
        simp only [List.length_append, List.length_singleton]; omega
    case bulkDestroy copy i rem rest outs newR =>
      obtain ⟨lim, P, h0, h5, h6⟩ := hst
      obtain ⟨hg, rfl, hrem, hb, ho⟩ := hC
      obtain ⟨s1, h1, _⟩ := h.destroyC (hb.hav.mono (by omega)) (by omega)
      rw [← (hb.pos hrem).1] at h1
      simp only [h1, orErr] at hs
      obtain ⟨rfl, rfl, rfl⟩ := tau_inv hs
      have h10 := destroyC_ev h1
      exact hR.quietC hs0 hok0 h10.2.1 (StatC.bulkNext h0 h6 h5)
    case bulkStore outs newR =>
      obtain ⟨cp, lim, P, h0, h1, h2⟩ := hst
      obtain ⟨rfl, rfl, hn, ho⟩ := hC
      obtain ⟨rfl, rfl, rfl⟩ := tau_inv hs
      refine hR.linC hs0 hok0 h0 ⟨?_, h1, fun h3 => .inr (h2 h3)⟩
      have h1 : (C.s.storeR newR outs.length).rel = C.s.rel + outs.length := by
        show (upd _ _ _ _ : Msg).cnt = _
        rw [show (C.s.storeR newR outs.length).rlast = C.s.rlast + 1 from rfl, upd_self]; rfl
      rw [h1, ← List.drop_drop]
      obtain ⟨l, hl⟩ := ho
      rw [← hl]; simp
    case rav2 w =>
      simp only [Option.bind_eq_some_iff, Prod.exists] at hs
      obtain ⟨s1, r, h1, hs⟩ := hs
      obtain ⟨rfl, hr⟩ := h.loadRC h1
      obtain ⟨rfl, rfl, rfl⟩ := tau_inv hs
      obtain ⟨P, h0, h2⟩ := hst
      exact hR.quietC hs0 hok0 rfl (.inr ⟨_, P, h0, h2 _ hr⟩)
    case emp2 w =>
      simp only [Option.bind_eq_some_iff, Prod.exists] at hs
      obtain ⟨s1, r, h1, hs⟩ := hs
      obtain ⟨rfl, hr⟩ := h.loadRC h1
      obtain ⟨rfl, rfl, rfl⟩ := tau_inv hs
      obtain ⟨P, h0, h2⟩ := hst
      exact hR.quietC hs0 hok0 rfl (.inr ⟨_, P, h0, h2 _ hr⟩)
    case emp3 r =>
      simp only [Option.bind_eq_some_iff, Prod.exists] at hs
      obtain ⟨s1, w, h1, hs⟩ := hs
      obtain ⟨rfl, rfl, rfl⟩ := tau_inv hs
      obtain ⟨P, h0, h2⟩ := hst
      obtain ⟨hw, hr⟩ := lw h1 hlat
      refine hR.linC hs0 hok0 h0 ⟨?_, by rw [hr]⟩
      rw [eqv hw h2, List.drop_eq_nil_iff]
      omega
    case frt2 w =>
      obtain ⟨rfl, rfl, i, i2, i3, i4, i5⟩ := hC
      simp only [Option.bind_eq_some_iff, Prod.exists] at hs
      obtain ⟨s1, r, h1, hs⟩ := hs
      obtain ⟨rfl, hr⟩ := h.loadRC h1
      obtain ⟨rfl, rfl, rfl⟩ := tau_inv hs
      obtain ⟨P, h0, h2⟩ := hst
      have hw := h.cnt_le (k := i) (Nat.le_trans i2 h.vcw)
      have hav := readAvail_exact (w := w) (r := r) (c := C.s.rel) (d := (C.s.W i).cnt - C.s.rel) (max := cfg.size)
        (by omega) hr (by rw [i3]; congr 1; omega)
      refine hR.quietC hs0 hok0 rfl ?_
      split
      · rename_i h3
        rw [h3] at hav
        have hav : 0 = (C.s.W i).cnt - C.s.rel := hav
        exact .inr ⟨_, P, h0, h2 (by rw [i3]; congr 1; omega)⟩
      · exact ⟨true, P, h0⟩
    case frt3 =>
      simp only [Option.bind_eq_some_iff, Prod.exists] at hs
      obtain ⟨s1, r, h1, hs⟩ := hs
      obtain ⟨rfl, hr⟩ := h.loadRC h1
      obtain ⟨rfl, rfl, rfl⟩ := tau_inv hs
      exact hR.quietC hs0 hok0 rfl hst
    case frt4 r =>
      obtain ⟨b, P, h0⟩ := hst
      obtain ⟨rfl, rfl, hr, hh⟩ := hC
      obtain ⟨s1, v, h1, h2, h3, h4⟩ := h.readC hh
      rw [Nat.add_zero, ← hr] at h1
      simp only [h1] at hs
      obtain ⟨rfl, rfl, rfl⟩ := tau_inv hs
      have h10 := readC_ev h1
      refine hR.linC hs0 hok0 h0 ⟨?_, by rw [h10.2.1]⟩
      rw [List.head?_drop]; simpa using h3
    case ret r =>
      simp only [Option.some.injEq, Prod.mk.injEq] at hs
      obtain ⟨rfl, rfl, rfl⟩ := hs
      refine hR.closeC hs0 hok0 (c' := ⟨c.st, upd c.status 1 .idle⟩) hR.st
        (fun t ht => by simp [upd_ne _ _ _ ht]) (by simp only [upd_self]; rfl) ?_
      rcases hst with ⟨o, h1⟩ | ⟨o, P, h1, h2⟩
      · exact .res h1
      · exact .resObs h1 h2
    all_goals exact hC.elim

theorem SR.sim (hN : Holds cfg N) : Mach.SimBy (mach α cfg) okSC (spec α N) (SR cfg N) := by
  intro C c t ch s' p' e hR hs hok
  rcases hR.inv.tid hs with rfl | rfl
  · exact hR.stepP hN hs hok
  · exact hR.stepC hN hs hok

theorem SR.initial (hN : Holds cfg N) (hs : Start cfg C) : SR cfg N C (CState.initial (spec α N)) := by
  obtain ⟨h1, h2, _, h3⟩ := hN.start hs
  refine ⟨h1, ?_, ?_, ?_, fun _ => rfl⟩
  · rw [h2]; exact List.drop_nil.symm
  · rw [h3]; rfl
  · rw [h3]; rfl

/-- C11. When loads return the latest store, the queue is linearizable with respect to the bounded FIFO queue of
`Spec.lean`, for every interleaving of the two threads, wrap-around, trivial and non-trivial element types. -/
theorem spsc_linearizable (hN : Holds cfg N) {C₀ : Conf α} (h0 : Start cfg C₀)
    (hx : MSteps (mach α cfg) okSC C₀ h C) : Linearizable (spec α N) h := by
  obtain ⟨c, -, hc⟩ := MSteps.sim (SR.sim hN) (SR.initial hN h0) hx
  exact hc.linearizable

end Verif.Spsc
