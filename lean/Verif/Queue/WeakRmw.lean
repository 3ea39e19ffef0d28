import Verif.Queue.WeakWrite

/-!
# Queue under release/acquire memory: preservation of the invariant by stores and compare-exchanges (proof)
-/

namespace Verif.Queue
open Lin

variable {α : Type} {cfg : Cfg}

theorem rmw_top (w : WSt α) (t : Nat) (l : Loc) (ns : List Nat) (s' : St α) : (w.rmw t l ns s').top = topp w.top l := rfl

theorem rmw_msg (w : WSt α) (t : Nat) (l : Loc) (ns : List Nat) (s' : St α) :
    (w.rmw t l ns s').msg = msgp w.msg w.top l ⟨s'.word l, w.rmwView t l⟩ := rfl

section
variable {C : WConf α} {g : G} {gh : Gh} {c : QC α} (hi : WInv cfg C g gh c) {t : Nat}
include hi

/-- Stores to the link of an owned node. -/
theorem WInv.storeSt {n : Nat} {at' : Bool} {ns : List Nat} {s' : St α} {p'} (hh : g.held t = [n]) (hns : ∀ m ∈ ns, m = n)
    (si' : SI cfg s' g (c.vals.drop c.nd)) (hg : Guar false t C.s.s g s' g) (hword : ∀ l', l' ≠ .next n → s'.word l' = C.s.s.word l')
    (hver : C.s.s.heap.nver n ≤ s'.heap.nver n) (hspec : specSnap p' = none)
    (hloc : WLocal cfg (C.s.store t n at' true ns s') g.F gh (C.s.storeView t (.next n)) (g.held t) (c.status t) p') :
    Nxt cfg C c t (C.s.store t n at' true ns s') p' none := by
  have hthr : g.own n = .thr t := (hi.si.heap.hmem t n).2 (by simp [hh])
  have hk := hi.oi.thr n t hthr
  have hvt : (C.s.store t n at' true ns s').view t = C.s.storeView t (.next n) := by simp [WSt.store]
  have hle := le_storeView C.s t (.next n)
  have hV := hi.vgt t
  refine ⟨g, gh, c, .stay c, ?_⟩
  have := hi.write' (t := t) (w' := C.s.store t n at' true ns s') (p' := p') (g' := g) (st := c.status t) ns (.next n) (by simp) si' hg rfl
    ?_ ?_ rfl hword ?_ rfl (fun t' ht => ⟨by simp [WSt.store, upd_ne _ _ _ ht], rfl⟩) rfl (fun m hm => by rw [hns m hm]; exact hthr) ?_
    (fun m hm => by cases hm; exact hthr) ?_ (.inl ⟨by simp, fun _ h => h⟩) hspec (by rw [hvt]; exact hloc)
  · rw [upd_eta] at this; exact this
  · refine hi.m1.store (b := !at') (x := s'.word (.next n)) (V := C.s.storeView t (.next n)) ?_ (seen_storeView _ _ _) (si'.ntag n) ?_
    · intro i h1 h2
      have h3 := hk.2.2 i h1 h2
      exact ⟨Nat.lt_of_lt_of_le h3 (hle.1 _), Nat.lt_of_lt_of_le h3 (hV.1 _)⟩
    · rw [← hi.nver_eq]; exact hver
  · simp [WSt.store, msgp]
  · rw [hvt]; exact hi.vg_store t hk.2.1 _
  · intro m hm
    have : m ≠ n := by rintro rfl; exact hm.ne_thr hthr
    simp [WSt.store, upd_ne _ _ _ this]
  · intro m hm
    have : m = n := by have := (hi.si.heap.hmem t m).1 hm; rw [hh] at this; simpa using this
    subst this
    rw [hvt]
    refine ⟨knows_touched (View.knows.mono hk.1 hle) (vc_storeView _ _ _), ?_, fun i h1 h2 => Nat.lt_of_lt_of_le (hk.2.2 i h1 h2) (hle.1 _)⟩
    show upd C.s.top _ _ _ ≤ _
    rw [upd_self]; exact seen_storeView _ _ _

theorem WInv.store {ch n at' s' p' e} (h3 : storeOf (C.pc t) = some (n, at')) (hs : tstep cfg t C.s.s (C.pc t) ch = some (s', p', e)) :
    Nxt cfg C c t (C.s.store t n at' (at' || true) (touch (C.pc t)) s') p' none := by
  have hl := hi.loc t
  have hle := le_storeView C.s t (.next n)
  rw [Bool.or_true]
  generalize hp : C.pc t = p at h3 hs hl
  cases p with
  | nstore b v m o =>
    simp [storeOf] at h3
    obtain ⟨rfl, rfl⟩ := h3
    obtain ⟨hh, hpq, hd, hn⟩ := hl
    have hthr : g.own m = .thr t := (hi.si.heap.hmem t m).2 (by simp [hh])
    have hk := hi.oi.thr m t hthr
    have hV := hi.vgt t
    have hKh := hi.hK
    cases ch with
    | base ch =>
      cases ch <;> simp [tstep] at hs
      obtain ⟨rfl, rfl, rfl⟩ := hs
      obtain ⟨h5, h6⟩ := hi.si.nstore (t := t) (n := m) (by simp [hh])
      rw [hn] at h5 h6
      refine hi.storeSt hh (by simp [touch]) h5 h6 ?_ (by simp) rfl ?_
      · intro l' hl'
        cases l' with
        | next n' =>
          have : n' ≠ m := by rintro rfl; exact hl' rfl
          simp [St.word, St.nextSnap, upd_ne _ _ _ this]
        | _ => rfl
      · refine ⟨b, v, hh, hpq.mono hle, hd, by simp [WSt.store], ?_, ?_, ?_⟩
        · simp only [WSt.store, upd_self, if_true]
          exact knows_touched (View.knows.mono hk.1 hle) (vc_storeView _ _ _)
        · intro i h1 h2
          have h4 := hk.2.2 i h1 h2
          have h5 := hV.1 .head
          have := (hi.m1.lnk i (by omega)).1
          rw [h2] at this
          simp only [WSt.store, upd_self]; omega
        · simp [WSt.store]
    | _ => simp [tstep] at hs
  | free k m d =>
    cases d <;> simp [storeOf] at h3
    rename_i o
    obtain ⟨rfl, rfl⟩ := h3
    obtain ⟨hh, hd, _, hk⟩ := hl
    cases ch with
    | base ch =>
      simp only [tstep] at hs
      split at hs
      · simp at hs
      · rename_i h' d' hst
        simp at hs
        obtain ⟨rfl, rfl, rfl⟩ := hs
        have h4 := dStep_inv hi.si.heap (t := t) (n := m) (by simp [hh]) hd (d := .set o) trivial hst
        have h5 := dStep_tags hi.si.ntag hst
        obtain ⟨h6, h7⟩ := hi.si.fl h4.1 h5.1 (fun n hn => Nat.le_of_eq (h5.2 n hn).symm)
        cases ch <;> simp [dStep] at hst
        obtain ⟨rfl, rfl⟩ := hst
        refine hi.storeSt hh (by simp [touch]) h6 h7 ?_ (by simp [Heap.setNextPtr]) rfl ⟨hh, hd, h4.2.1, ?_⟩
        · intro l' hl'
          cases l' with
          | next n' =>
            have : n' ≠ m := by rintro rfl; exact hl' rfl
            simp [St.word, St.nextSnap, Heap.setNextPtr, upd_ne _ _ _ this]
          | _ => rfl
        · cases k with
          | pop v => exact DoneQ.mono hk hle
          | rsv j => obtain ⟨j', hk⟩ := hk; exact ⟨j', hk.mono hle⟩
      · rename_i hst
        cases ch <;> simp [dStep] at hst
    | _ => simp [tstep] at hs
  | _ => simp [storeOf] at h3

/-- Compare-exchanges of `pool_` and `tail_`. -/
theorem WInv.rmwSt {l : Loc} {s' : St α} {g' : G} {p'} (hl : l = .pool ∨ l = .tail)
    (si' : SI cfg s' g' (c.vals.drop c.nd)) (hg : Guar false t C.s.s g s' g') (hL : g'.L = g.L)
    (m1' : M1 cfg.M (msgp C.s.msg C.s.top l ⟨s'.word l, C.s.rmwView t l⟩) (topp C.s.top l) C.s.pl gh)
    (hword : ∀ l', l' ≠ l → s'.word l' = C.s.s.word l')
    (hown : ∀ n, g'.own n = .thr t → g.own n = .thr t ∨ (l = .pool ∧ (g.own n = .free ∨ g.own n = .raw)))
    (hfree : ∀ n, g'.own n = .free → g.own n = .free ∨ (l = .pool ∧ g.own n = .thr t)) (hspec : specSnap p' = none)
    (hloc : WLocal cfg (C.s.rmw t l [] s') g'.F gh (C.s.rmwView t l) (g'.held t) (c.status t) p') :
    Nxt cfg C c t (C.s.rmw t l [] s') p' none := by
  have hvt : (C.s.rmw t l [] s').view t = C.s.rmwView t l := by simp [WSt.rmw]
  have hle := le_rmwView C.s t l
  have hnn : ∀ n, Loc.next n ≠ l := by intro n; rcases hl with rfl | rfl <;> simp
  have hkn : ∀ {n}, kn C.s.acc C.s.top gh (C.s.rmwView t l) n →
      kn (C.s.rmw t l [] s').acc (C.s.rmw t l [] s').top gh (C.s.rmwView t l) n := by
    intro n ⟨h1, h2, h3⟩
    refine ⟨knows_touched h1 (vc_rmwView _ _ _), ?_, h3⟩
    show upd C.s.top _ _ _ ≤ _
    rw [upd_ne _ _ _ (hnn n)]; exact h2
  refine ⟨g', gh, c, .stay c, ?_⟩
  have := hi.write' (t := t) (w' := C.s.rmw t l [] s') (p' := p') (g' := g') (st := c.status t) [] l (by rcases hl with rfl | rfl <;> simp) si' hg hL
    m1' (by simp [WSt.rmw, msgp]) rfl hword (by rw [hvt]; exact hi.vg_rmw t l _) rfl (fun t' ht => ⟨by simp [WSt.rmw, upd_ne _ _ _ ht], rfl⟩) rfl (by simp)
    (fun _ _ => rfl) (fun m hm => absurd hm.symm (hnn m)) ?_ ?_ hspec (by rw [hvt]; exact hloc)
  · rw [upd_eta] at this; exact this
  · intro n hn
    rw [hvt]
    refine hkn ?_
    rcases hown n hn with h | ⟨rfl, h | h⟩
    · exact (hi.oi.thr n t h).mono hle
    · exact (hi.oi.free n h).mono (msg_le_rmwView _ _ _)
    · obtain ⟨h1, h2, _, _, h5⟩ := hi.oi.raw n h
      exact ⟨by rw [h1]; exact View.knows_nil _, by rw [h2]; exact Nat.zero_le _, fun i h6 h7 => absurd h7 (h5 i h6)⟩
  · rw [hvt]
    by_cases hp : l = .pool
    · refine .inr ⟨hp, by subst hp; exact msg_le_rmwView _ _ _, fun n hn => ?_⟩
      rcases hfree n hn with h | ⟨_, h⟩
      · exact .inl h
      · exact .inr (hkn ((hi.oi.thr n t h).mono hle))
    · refine .inl ⟨hp, fun n hn => ?_⟩
      rcases hfree n hn with h | ⟨h, _⟩
      · exact h
      · exact absurd h hp

theorem WInv.link {n : Nat} {T N : Snap} {m : Nat} (hp : C.pc t = .pCas n T N) (hm : T.v.ptr = some m)
    (hw : C.s.s.heap.next m = N.v) (hf : cfg.M = 0 ∨ C.s.s.heap.nver m < N.ver + cfg.M) :
    Nxt cfg C c t (C.s.rmw t (.next m) [] { C.s.s with heap := { C.s.s.heap with
      next := upd C.s.s.heap.next m ⟨some n, cfg.nextTag N.v.tag⟩
      nver := upd C.s.s.heap.nver m (C.s.s.heap.nver m + 1) } }) (.swing .donePush T n) none := by
  have hl := hi.loc t
  rw [hp] at hl
  obtain ⟨⟨b, x, hh, ⟨b', hst, hb1, hb2⟩, hd, hnp, hkn, hX, hpl⟩, hT, hN⟩ := hl
  have hm' : m = gh.X T.ver := by
    have := hT.1; rw [this] at hm; simpa using hm.symm
  subst hm'
  have hV := hi.vgt t
  have hVt := hV.1 .tail
  have htK := hi.m1.tK
  have hT2 := hT.2
  have hTK : T.ver ≤ gh.K := by omega
  have hnu := (hi.m1.nul _ hTK).1
  have hvle : N.ver ≤ C.s.s.heap.nver (gh.X T.ver) := by
    rw [hN, hi.nver_eq]; exact hi.m1.mono _ _ _ hnu (Nat.le_refl _)
  have hNt : N.v.tag = N.ver % cfg.M := by rw [hN]; exact hi.m1.tag _ _ hnu
  have hver : C.s.s.heap.nver (gh.X T.ver) = N.ver := by
    refine ver_eq_of_fresh hvle hf ?_
    rw [← hi.si.ntag, hw, hNt]
  have hTeq : T.ver = gh.K := by
    apply Nat.le_antisymm hTK
    apply Nat.le_of_not_lt
    intro hlt
    obtain ⟨h1, _, h2⟩ := hi.m1.lnk _ hlt
    have h3 := hi.m1.mono _ _ _ h1 (Nat.le_refl _)
    rw [← hi.nver_eq, hver, hN] at h3
    simp only [nmsg] at h3
    omega
  have htt : C.s.top .tail = gh.K := by omega
  rw [hTeq] at hw hver hN
  have hlast := hi.m1.lastK
  have hthr : g.own n = .thr t := (hi.si.heap.hmem t n).2 (by simp [hh])
  have hk := hi.oi.thr n t hthr
  have hKh := hi.hK
  have hxK : g.own (gh.X gh.K) = .str := hi.X_str hKh (Nat.le_refl _)
  have hnx : n ≠ gh.X gh.K := by rintro rfl; rw [hxK] at hthr; simp at hthr
  have hle := le_rmwView C.s t (.next (gh.X gh.K))
  obtain ⟨h5, h6, h7⟩ := hi.si.link hh hd hnp hi.getLast (by rw [hi.tailPtr, htt])
  rw [hw] at h5 h6
  rw [hTeq]
  have hvt : ∀ s', (C.s.rmw t (.next (gh.X gh.K)) [] s').view t = C.s.rmwView t (.next (gh.X gh.K)) := by intro s'; simp [WSt.rmw]
  have hXo : ∀ i, i ≤ gh.K → upd gh.X (gh.K + 1) n i = gh.X i := fun i h => upd_ne _ _ _ (by omega)
  have hnuo : ∀ i, i ≤ gh.K → upd gh.nu (gh.K + 1) (C.s.top (.next n)) i = gh.nu i := fun i h => upd_ne _ _ _ (by omega)
  have hnd : c.nd ≤ c.vals.length := by rw [hi.cnd, hi.cK]; exact hKh
  refine ⟨⟨upd g.own n .str, g.F, g.L ++ [n], upd g.held t []⟩, ⟨upd gh.X (gh.K + 1) n, upd gh.nu (gh.K + 1) (C.s.top (.next n)), gh.K + 1⟩, _, .push hst, ?_⟩
  refine hi.write (lk := false) (gh' := ⟨upd gh.X (gh.K + 1) n, upd gh.nu (gh.K + 1) (C.s.top (.next n)), gh.K + 1⟩) [] (.next (gh.X gh.K)) (g' := ⟨upd g.own n .str, g.F, g.L ++ [n], upd g.held t []⟩)
    ?_ h6 ?_ ?_ (by simp [WSt.rmw, msgp]) rfl ?_ (Nat.le_succ _) (fun i h => hXo i h) (fun i h => hnuo i h) ?_ rfl
    (fun t' ht => ⟨by simp [WSt.rmw, upd_ne _ _ _ ht], rfl⟩) rfl (by simp) (fun _ _ => rfl)
    (fun m hm => by cases hm; exact .inr hxK) ?_ ?_ (.inl ⟨by simp, ?_⟩) rfl ?_ ?_ ?_ ?_ ?_ ?_ ?_
  · show SI cfg _ _ ((c.vals ++ [x]).drop c.nd)
    rw [List.drop_append_of_le_length hnd]; exact h5
  · have h8 : (C.s.rmw t (.next (gh.X gh.K)) [] { C.s.s with heap := { C.s.s.heap with
      next := upd C.s.s.heap.next (gh.X gh.K) ⟨some n, cfg.nextTag N.v.tag⟩
      nver := upd C.s.s.heap.nver (gh.X gh.K) (C.s.s.heap.nver (gh.X gh.K) + 1) } }).top .head = C.s.top .head := by rw [rmw_top, topp_ne (by simp)]
    simp only [h8]
    rw [hi.gl, show gh.K + 1 + 1 - C.s.top .head = (gh.K + 1 - C.s.top .head) + 1 by omega, List.range'_concat, List.map_append]
    congr 1
    · refine List.map_congr_left fun i h => ?_
      rw [List.mem_range'_1] at h
      exact (hXo i (by omega)).symm
    · simp only [List.map_cons, List.map_nil]
      rw [show C.s.top .head + 1 * (gh.K + 1 - C.s.top .head) = gh.K + 1 by omega, upd_self]
  · have h8 := hi.m1.link (n := n) (V := C.s.rmwView t (.next (gh.X gh.K))) (g := N.v.tag + 1) htt
      (fun i h1 h2 h3 => by have := hi.X_str h1 h2; rw [h3, hthr] at this; simp at this) (by rw [← hi.next_eq]; exact hnp) hX hpl
      (by rw [hNt, hN]; simp [nmsg]) (by rw [← hlast]; exact msg_le_rmwView _ _ _) (by rw [← hlast]; exact seen_rmwView _ _ _)
      (Nat.le_trans (by omega) (hle.1 .tail)) (Nat.le_trans hk.2.1 (hle.1 _))
    have h9 : (⟨⟨some n, (N.v.tag + 1) % cfg.M⟩, (C.s.msg (.next (gh.X gh.K)) (gh.nu gh.K)).val.ver + 1⟩ : Snap) =
        ({ C.s.s with heap := { C.s.s.heap with
          next := upd C.s.s.heap.next (gh.X gh.K) ⟨some n, cfg.nextTag N.v.tag⟩
          nver := upd C.s.s.heap.nver (gh.X gh.K) (C.s.s.heap.nver (gh.X gh.K) + 1) } } : St α).word (.next (gh.X gh.K)) := by
      simp only [St.word, St.nextSnap, upd_self, Cfg.nextTag]
      rw [hi.nver_eq, hlast]
    rw [h9] at h8
    exact h8
  · intro l' hl'
    cases l' with
    | next n' =>
      have : n' ≠ gh.X gh.K := by rintro rfl; exact hl' rfl
      simp [WSt.rmw, St.word, St.nextSnap, upd_ne _ _ _ this]
    | _ => rfl
  · rw [hvt]; exact hi.vg_rmw t _ _
  · intro m i hq h1 h2
    apply Nat.le_of_not_lt
    intro h3
    have h4 : i = gh.K + 1 := by
      change i ≤ gh.K + 1 at h1
      omega
    subst h4
    simp only [upd_self] at h2
    subst h2
    exact hq.ne_thr hthr
  · intro m hm
    simp only [upd_apply] at hm
    split at hm
    · simp at hm
    · rename_i hne
      have := (hi.si.heap.hmem t m).1 hm
      rw [hh] at this; simp at this; exact absurd this hne
  · intro m hm
    simp only [upd_apply] at hm
    split at hm
    · simp at hm
    · exact hm
  · intro i h1 h2
    have h8 : C.s.top .head < i := by
      simp only [WSt.rmw] at h1
      rw [upd_ne _ _ _ (by simp)] at h1
      exact h1
    change i ≤ gh.K + 1 at h2
    have hacc : (C.s.rmw t (.next (gh.X gh.K)) [] { C.s.s with heap := { C.s.s.heap with
          next := upd C.s.s.heap.next (gh.X gh.K) ⟨some n, cfg.nextTag N.v.tag⟩
          nver := upd C.s.s.heap.nver (gh.X gh.K) (C.s.s.heap.nver (gh.X gh.K) + 1) } }).acc = C.s.acc := by
      funext m
      simp only [WSt.rmw, WSt.touched]
      split
      · rename_i h; simp at h; omega
      · rfl
    rw [hacc]
    show View.knows (msgp C.s.msg C.s.top (.next (gh.X gh.K)) _ _ _).view _ = true
    by_cases h9 : i = gh.K + 1
    · subst h9
      simp only [upd_self]
      rw [msgp_old (Nat.le_refl _)]
      exact hkn
    · simp only [hXo i (by omega), hnuo i (by omega)]
      rw [msgp_old (hi.m1.nul i (by omega)).1]
      exact hi.oi.strA i h8 (by omega)
  · have hacc : (C.s.rmw t (.next (gh.X gh.K)) [] { C.s.s with heap := { C.s.s.heap with
          next := upd C.s.s.heap.next (gh.X gh.K) ⟨some n, cfg.nextTag N.v.tag⟩
          nver := upd C.s.s.heap.nver (gh.X gh.K) (C.s.s.heap.nver (gh.X gh.K) + 1) } }).acc = C.s.acc := by
      funext m
      simp only [WSt.rmw, WSt.touched]
      split
      · rename_i h; simp at h; omega
      · rfl
    rw [hacc]
    have h8 : topp C.s.top (.next (gh.X gh.K)) .head = C.s.top .head := topp_ne (by simp)
    rw [rmw_top, rmw_msg, h8, msgp_ne (by simp)]
    simp only [hXo _ hKh]
    exact hi.oi.dum
  · simp [hi.cK]
  · rw [rmw_top, topp_ne (by simp)]; exact hi.cnd
  · rw [rmw_top, rmw_msg, topp_ne (by simp), msgp_ne (by simp)]; exact hi.ctau
  · intro t' ht; simp [upd_ne _ _ _ ht]
  · rw [hvt]
    refine ⟨⟨?_, Nat.le_trans hT2 (hle.1 _)⟩, ⟨?_, ?_⟩, ?_, ?_, ?_⟩
    · show T = ⟨⟨some (upd gh.X (gh.K + 1) n T.ver), _⟩, _⟩
      rw [hXo _ hTK]; exact hT.1
    · show T.ver < gh.K + 1
      omega
    · show upd gh.nu (gh.K + 1) (C.s.top (.next n)) T.ver + 1 ≤ (C.s.rmwView t (.next (gh.X gh.K))).seen (.next (upd gh.X (gh.K + 1) n T.ver))
      rw [hXo _ hTK, hnuo _ hTK, hTeq, ← hlast]
      exact seen_rmwView _ _ _
    · show n = upd gh.X (gh.K + 1) n (T.ver + 1)
      rw [hTeq, upd_self]
    · simp
    · exact ⟨.push b x, by simp [hi.cK, hTeq]⟩

theorem WInv.popC {H : Snap} {y : Nat} {x : α} {m : Nat} (hp : C.pc t = .cCas H y x) (hm : H.v.ptr = some m)
    (hH : H.ver = C.s.top .head) (hk : (C.s.view t).knows (C.s.acc y) = true) :
    Nxt cfg C c t (C.s.rmw t .head [y] { C.s.s with head := ⟨some y, cfg.nextTag H.v.tag⟩, headVer := C.s.s.headVer + 1 })
      (.cDestroy m x) none := by
  have hl := hi.loc t
  rw [hp] at hl
  obtain ⟨hh, hHo, hLk, rfl, hlt, ⟨b, hst, hb1, hb2⟩, hdat⟩ := hl
  have hm' : m = gh.X H.ver := by
    have := hHo.1; rw [this] at hm; simpa using hm.symm
  subst hm'
  have hdat := hdat hH
  have hHt : H.v.tag = H.ver % cfg.M := congrArg (fun s => s.v.tag) hHo.1
  rw [hHt]
  rw [hH] at hk hdat hlt hLk ⊢
  have hV := hi.vgt t
  have hVt := hV.1 .tail
  have hKK := hLk.1
  have htK := hi.m1.tK
  have hne : ∀ i, C.s.top .head < i → i ≤ gh.K → gh.X (C.s.top .head) ≠ gh.X i := fun i h1 h2 => hi.m1.inj _ _ (Nat.le_refl _) h1 h2
  have hnext : (C.s.s.heap.next (gh.X (C.s.top .head))).ptr = some (gh.X (C.s.top .head + 1)) := by
    rw [hi.next_eq, hi.m1.str _ (Nat.le_refl _) hKK]; exact (hi.m1.lnk _ hKK).2.1
  obtain ⟨σ', L', h5, h6, h7, h8⟩ := hi.si.pop hh hi.headPtr
    (by rw [hi.tailPtr]; simp only [ne_eq, Option.some.injEq]; exact fun h => hne _ (by omega) htK h.symm) hnext hdat
  have hxs : g.own (gh.X (C.s.top .head)) = .str := hi.X_str (Nat.le_refl _) hi.hK
  have hys : g.own (gh.X (C.s.top .head + 1)) = .str := hi.X_str (Nat.le_succ _) hKK
  have hle := le_rmwView C.s t .head
  have hht : C.s.s.head.tag = C.s.top .head % cfg.M := congrArg (fun s => s.v.tag) hi.headSnap
  rw [hht] at h7 h8
  have hvt : ∀ s', (C.s.rmw t .head [gh.X (C.s.top .head + 1)] s').view t = C.s.rmwView t .head := by intro s'; simp [WSt.rmw]
  have hget : c.vals[c.nd]? = some x := by
    have := congrArg (·[0]?) h5
    simpa using this
  have hdrop : c.vals.drop (c.nd + 1) = σ' := by
    have := congrArg (List.drop 1) h5
    simpa using this
  have hbt : b.2 ≤ (C.s.rmwView t .head).seen .tail := Nat.le_trans hb2 (hle.1 _)
  have htau : c.tau c.nd ≤ (C.s.rmwView t .head).seen .tail := by
    rw [hi.cnd, hi.ctau _ (Nat.le_refl _)]; exact (msg_le_rmwView _ _ _).1 _
  have hgl : gh.X (C.s.top .head + 1) :: L' = (List.range' (C.s.top .head + 1) (gh.K + 1 - (C.s.top .head + 1))).map gh.X := by
    have h9 := hi.gl
    rw [h6, show gh.K + 1 - C.s.top .head = (gh.K + 1 - (C.s.top .head + 1)) + 1 by omega, List.range'_succ, List.map_cons] at h9
    simpa using h9
  have hta : ∀ {s' : St α}, (C.s.rmw t .head [gh.X (C.s.top .head + 1)] s').top .head = C.s.top .head + 1 := fun {s'} => by rw [rmw_top, topp_self]
  refine ⟨⟨upd g.own (gh.X (C.s.top .head)) (.thr t), g.F, gh.X (C.s.top .head + 1) :: L', upd g.held t [gh.X (C.s.top .head)]⟩, gh, _, .pop (τ := (C.s.rmwView t .head).seen .tail) hst hget htau hbt, ?_⟩
  refine hi.write (lk := false) (gh' := gh) [gh.X (C.s.top .head + 1)] .head (g' := ⟨upd g.own (gh.X (C.s.top .head)) (.thr t), g.F, gh.X (C.s.top .head + 1) :: L', upd g.held t [gh.X (C.s.top .head)]⟩)
    ?_ h8 ?_ ?_ (by simp [WSt.rmw, msgp]) rfl ?_ (Nat.le_refl _) (fun i h => rfl) (fun i h => rfl) ?_ rfl
    (fun t' ht => ⟨by simp [WSt.rmw, upd_ne _ _ _ ht], rfl⟩) rfl (fun n h => by simp at h; subst h; exact .inr hys) (fun _ _ => rfl)
    (fun m hm => by cases hm) (fun _ _ _ h _ => h) ?_ (.inl ⟨by simp, ?_⟩) rfl ?_ ?_ hi.cK ?_ ?_ ?_ ?_
  · show SI cfg _ _ (c.vals.drop (c.nd + 1))
    rw [hdrop]; exact h7
  · rw [hta]; exact hgl
  · have h9 := hi.m1.pop (V := C.s.rmwView t .head) (seen_rmwView _ _ _) (Nat.le_trans hlt (hle.1 _)) (by omega)
    have h10 : (⟨⟨some (gh.X (C.s.top .head + 1)), (C.s.top .head + 1) % cfg.M⟩, C.s.top .head + 1⟩ : Snap) =
        ({ C.s.s with head := ⟨some (gh.X (C.s.top .head + 1)), cfg.nextTag (C.s.top .head % cfg.M)⟩, headVer := C.s.s.headVer + 1 } : St α).word .head := by
      simp [St.word, St.headSnap, Cfg.nextTag, hi.headVer]
    rw [h10] at h9
    exact h9
  · intro l' hl'
    cases l' with
    | head => exact absurd rfl hl'
    | _ => rfl
  · rw [hvt]; exact hi.vg_rmw t _ _
  · intro m hm
    rw [hvt]
    simp only [upd_apply] at hm
    split at hm
    · subst_vars
      refine ⟨knows_touched (View.knows.mono hi.oi.dum (msg_le_rmwView _ _ _)) (vc_rmwView _ _ _), ?_, ?_⟩
      · rw [rmw_top, topp_ne (by simp), hi.m1.str _ (Nat.le_refl _) hKK]
        exact Nat.le_trans hLk.2 (hle.1 _)
      · intro i h1 h2
        have h3 : i ≤ C.s.top .head := by
          apply Nat.le_of_not_lt
          intro h4
          exact hne i h4 h1 h2.symm
        have := seen_rmwView C.s t .head
        omega
    · have := (hi.si.heap.hmem t m).1 hm
      rw [hh] at this; simp at this
  · intro m hm
    simp only [upd_apply] at hm
    split at hm
    · simp at hm
    · exact hm
  · intro i h1 h2
    rw [hta] at h1
    have h3 := hi.X_str (i := i) (by omega) h2
    have h4 : (C.s.rmw t .head [gh.X (C.s.top .head + 1)] { C.s.s with head := ⟨some (gh.X (C.s.top .head + 1)), cfg.nextTag (C.s.top .head % cfg.M)⟩, headVer := C.s.s.headVer + 1 }).acc (gh.X i) = C.s.acc (gh.X i) := by
      refine hi.touched_ex ?_ (by rw [h3]; simp)
      simp only [List.mem_singleton]
      exact fun h => hi.m1.inj (C.s.top .head + 1) i (by omega) h1 h2 h.symm
    rw [h4]
    show View.knows (msgp C.s.msg C.s.top .head _ _ _).view _ = true
    rw [msgp_ne (by simp)]
    exact hi.oi.strA i (by omega) h2
  · rw [hta]
    show View.knows (msgp C.s.msg C.s.top .head _ _ _).view _ = true
    rw [msgp_new]
    exact knows_touched (View.knows.mono hk hle) (vc_rmwView _ _ _)
  · rw [hta]; show c.nd + 1 = _; rw [hi.cnd]
  · intro k hk'
    rw [hta] at hk'
    show upd c.tau (c.nd + 1) _ k = (msgp C.s.msg C.s.top .head _ .head k).view.seen .tail
    by_cases h1 : k = C.s.top .head + 1
    · subst h1; rw [hi.cnd, upd_self, msgp_new]
    · rw [hi.cnd, upd_ne _ _ _ h1, msgp_old (by omega)]; exact hi.ctau k (by omega)
  · intro t' ht; simp [upd_ne _ _ _ ht]
  · rw [hvt]
    refine ⟨by simp, .pop, (c.nd + 1, 0), by simp, ?_, Nat.zero_le _⟩
    rw [hi.cnd]; exact seen_rmwView _ _ _

theorem WInv.rmw {l o s' p' e} (hc : casOf (C.pc t) = some (l, o)) (hw : (C.s.s.word l).v = o.v)
    (hk : ∀ n ∈ touch (C.pc t), (C.s.view t).knows (C.s.acc n) = true) (hok : fresh cfg C.s.s (C.pc t))
    (hs : tstep cfg t C.s.s (C.pc t) (.base .go) = some (s', p', e)) :
    Nxt cfg C c t (C.s.rmw t l (touch (C.pc t)) s') p' none := by
  have hl := hi.loc t
  generalize hp : C.pc t = p at hc hk hok hs hl
  cases p with
  | alloc b v a =>
    cases a <;> simp [casOf] at hc
    rename_i o' nx
    obtain ⟨rfl, rfl⟩ := hc
    obtain ⟨hh, hpq, hal⟩ := hl
    have hle := le_rmwView C.s t .pool
    have hw' : C.s.s.heap.pool = o'.v := hw
    obtain ⟨m, hm⟩ : ∃ m, o'.v.ptr = some m := ⟨_, hal.2.choose_spec.1⟩
    have hst : aStep cfg b C.s.s.heap (.cas o' nx) (.go : Choice (Op α)) =
        some ({ C.s.s.heap with pool := ⟨nx, cfg.nextTag o'.v.tag⟩, poolVer := C.s.s.heap.poolVer + 1 }, .got m) := by
      simp [aStep, hw', hm]
    simp only [tstep, hst, Option.some.injEq, Prod.mk.injEq] at hs
    obtain ⟨rfl, rfl, rfl⟩ := hs
    obtain ⟨F', h4, h5, h6, h7⟩ := aStep_inv (t := t) hi.si.heap hal hok hst
    have h8 := aStep_tags hi.si.ntag hst
    obtain ⟨h9, h10⟩ := hi.si.fl h4 h8.1 (fun n hn => Nat.le_of_eq (h8.2 n hn).symm)
    refine hi.rmwSt (.inl rfl) h9 h10 rfl hi.m1.pool ?_ ?_ ?_ rfl ⟨by simp [hh], hpq.mono hle, h6⟩
    · intro l' hl'
      cases l' with
      | pool => exact absurd rfl hl'
      | _ => rfl
    · intro n hn; simp only [upd_apply] at hn; split at hn
      · subst_vars; exact .inr ⟨rfl, h5.symm⟩
      · exact .inl hn
    · intro n hn; simp only [upd_apply] at hn; split at hn
      · simp at hn
      · exact .inl hn
  | free k n d =>
    cases d <;> simp [casOf] at hc
    rename_i o'
    obtain ⟨rfl, rfl⟩ := hc
    obtain ⟨hh, hd, hdl, hkk⟩ := hl
    have hle := le_rmwView C.s t .pool
    have hw' : C.s.s.heap.pool = o'.v := hw
    have hthr : g.own n = .thr t := (hi.si.heap.hmem t n).2 (by simp [hh])
    have hst : ∃ h', dStep C.s.s.heap n (.cas o') (.go : Choice (Op α)) = some (h', none) ∧
        h' = { C.s.s.heap with pool := ⟨some n, o'.v.tag⟩ } := by
      simp [dStep, hw']
    obtain ⟨h', hst, rfl⟩ := hst
    simp only [tstep, hst, Option.some.injEq, Prod.mk.injEq] at hs
    obtain ⟨rfl, rfl, rfl⟩ := hs
    obtain ⟨F', h4, h5, h6, h7⟩ := dStep_inv (t := t) hi.si.heap (by simp [hh]) hd hdl hst
    have h8 := dStep_tags hi.si.ntag hst
    obtain ⟨h9, h10⟩ := hi.si.fl h4 h8.1 (fun n hn => Nat.le_of_eq (h8.2 n hn).symm)
    refine hi.rmwSt (.inl rfl) h9 h10 rfl hi.m1.pool ?_ ?_ ?_ ?_ ?_
    · intro l' hl'
      cases l' with
      | pool => exact absurd rfl hl'
      | _ => rfl
    · intro n hn; simp only [upd_apply] at hn; split at hn
      · simp at hn
      · exact .inl hn
    · intro n hn; simp only [upd_apply] at hn; split at hn
      · subst_vars; exact .inr ⟨rfl, hthr⟩
      · exact .inl hn
    · cases k <;> rfl
    · cases k with
      | pop v => exact ⟨by simp [hh], DoneQ.mono hkk hle⟩
      | rsv j => obtain ⟨j', hkk⟩ := hkk; exact ⟨by simp [hh], j', hkk.mono hle⟩
  | pCas n T N =>
    simp [casOf] at hc
    obtain ⟨m, hm, rfl, rfl⟩ := hc
    have hw' : C.s.s.heap.next m = N.v := hw
    simp [tstep, hm, hw'] at hs
    obtain ⟨rfl, rfl, rfl⟩ := hs
    exact hi.link hp hm hw' (hok m hm)
  | swing k T y =>
    simp [casOf] at hc
    obtain ⟨rfl, rfl⟩ := hc
    have hw' : C.s.s.tail = T.v := hw
    obtain ⟨h1, h2, rfl, h4⟩ := hl
    have hle := le_rmwView C.s t .tail
    have hV := hi.vgt t
    have hVt := hV.1 .tail
    have hok' : cfg.M = 0 ∨ C.s.s.tailVer < T.ver + cfg.M := hok
    rw [hi.tailVer] at hok'
    have hTt : T.v.tag = T.ver % cfg.M := congrArg (fun s => s.v.tag) h1.1
    have htt : C.s.s.tail.tag = C.s.top .tail % cfg.M := congrArg (fun s => s.v.tag) hi.tailSnap
    have hver : C.s.top .tail = T.ver := by
      have := h1.2
      exact ver_eq_of_fresh (by omega) hok' (by rw [← htt, ← hTt, hw'])
    simp [tstep, St.swingTail, hw'] at hs
    obtain ⟨rfl, rfl, rfl⟩ := hs
    have hnext : (C.s.s.heap.next (gh.X (C.s.top .tail))).ptr = some (gh.X (T.ver + 1)) := by
      rw [hi.next_eq, hi.m1.str _ hi.m1.ht (by rw [hver]; exact h2.1), ← hver]
      exact (hi.m1.lnk _ (by rw [hver]; exact h2.1)).2.1
    obtain ⟨h9, h10, _⟩ := hi.si.swing (t := t) hi.tailPtr hnext
    rw [hw'] at h9 h10
    have hsn := seen_rmwView C.s t .tail
    refine hi.rmwSt (.inr rfl) h9 h10 rfl ?_ ?_ (fun _ h => .inl h) (fun _ h => .inl h) ?_ ?_
    · have h11 := hi.m1.swing (V := C.s.rmwView t .tail) (by rw [hver]; exact h2.1) (msg_le_rmwView _ _ _) hsn
        (by rw [hver]; exact Nat.le_trans h2.2 (hle.1 _))
      have h12 : (⟨⟨some (gh.X (C.s.top .tail + 1)), (C.s.top .tail + 1) % cfg.M⟩, C.s.top .tail + 1⟩ : Snap) =
          ({ C.s.s with tail := ⟨some (gh.X (T.ver + 1)), cfg.nextTag T.v.tag⟩, tailVer := C.s.s.tailVer + 1 } : St α).word .tail := by
        simp [St.word, St.tailSnap, Cfg.nextTag, hi.tailVer, hTt, hver]
      rw [h12] at h11
      exact h11
    · intro l' hl'
      cases l' with
      | tail => exact absurd rfl hl'
      | _ => rfl
    · cases k <;> rfl
    · cases k with
      | retryPush n =>
        obtain ⟨b, x, h5, h6, h7, h8, h13, h14, h15⟩ := h4
        have hta : topp C.s.top .tail (.next n) = C.s.top (.next n) := topp_ne (by simp)
        refine ⟨b, x, h5, h6.mono hle, h7, h8, ?_, ?_, ?_⟩
        · rw [rmw_top, rmw_msg, hta, msgp_ne (by simp)]
          have : (C.s.rmw t .tail [] { C.s.s with tail := ⟨some (gh.X (T.ver + 1)), cfg.nextTag T.v.tag⟩, tailVer := C.s.s.tailVer + 1 }).acc = C.s.acc := by
            funext m
            simp only [WSt.rmw, WSt.touched]
            split
            · rename_i h; simp at h; omega
            · rfl
          rw [this]; exact h13
        · show ∀ i ≤ gh.K, gh.X i = n → gh.nu i + 1 < topp C.s.top .tail (.next n)
          rw [hta]; exact h14
        · show C.s.pl n (topp C.s.top .tail (.next n)) = false
          rw [hta]; exact h15
      | donePush =>
        obtain ⟨h5, o, h6⟩ := h4
        refine ⟨h5, o, (0, T.ver + 1), h6, Nat.zero_le _, ?_⟩
        show T.ver + 1 ≤ _
        omega
      | retryPop => exact ⟨h4.1, h4.2.mono hle⟩
  | cCas H y x =>
    simp [casOf] at hc
    obtain ⟨rfl, rfl⟩ := hc
    have hw' : C.s.s.head = H.v := hw
    have hHo : HOk cfg.M gh (C.s.view t) H := hl.2.1
    have hVh := (hi.vgt t).1 .head
    have hok' : cfg.M = 0 ∨ C.s.s.headVer < H.ver + cfg.M := hok
    rw [hi.headVer] at hok'
    have hTt : H.v.tag = H.ver % cfg.M := congrArg (fun s => s.v.tag) hHo.1
    have htt : C.s.s.head.tag = C.s.top .head % cfg.M := congrArg (fun s => s.v.tag) hi.headSnap
    have hver : C.s.top .head = H.ver := by
      have := hHo.2
      exact ver_eq_of_fresh (by omega) hok' (by rw [← htt, ← hTt, hw'])
    have hm : H.v.ptr = some (gh.X H.ver) := congrArg (fun s => s.v.ptr) hHo.1
    simp [tstep, hm, hw'] at hs
    obtain ⟨rfl, rfl, rfl⟩ := hs
    exact hi.popC hp hm hver.symm (hk y (by simp [touch]))
  | _ => simp [casOf] at hc

/-- The compare-exchange of a `pop` succeeds only if `head_` has not changed. -/
theorem WInv.head_ver {H : Snap} {y : Nat} {x : α} (hp : C.pc t = .cCas H y x) (hw' : C.s.s.head = H.v)
    (hf : fresh cfg C.s.s (C.pc t)) : H.ver = C.s.top .head := by
  have hl := hi.loc t
  rw [hp] at hf hl
  have hHo : HOk cfg.M gh (C.s.view t) H := hl.2.1
  have hVh := (hi.vgt t).1 .head
  have hok' : cfg.M = 0 ∨ C.s.s.headVer < H.ver + cfg.M := hf
  rw [hi.headVer] at hok'
  have hTt : H.v.tag = H.ver % cfg.M := congrArg (fun s => s.v.tag) hHo.1
  have htt : C.s.s.head.tag = C.s.top .head % cfg.M := congrArg (fun s => s.v.tag) hi.headSnap
  have := hHo.2
  exact (ver_eq_of_fresh (by omega) hok' (by rw [← htt, ← hTt, hw'])).symm

/-- A step that leaves the memory and the view alone. -/
theorem WInv.skipSt {p' : PC α} {st : QStatus α} (hp : specSnap p' = none)
    (hloc : WLocal cfg C.s g.F gh (C.s.view t) (g.held t) st p') :
    WInv cfg ⟨C.s, upd C.pc t p'⟩ g gh { c with status := upd c.status t st } := by
  refine ⟨hi.si, hi.gl, hi.m1, hi.last, hi.vg, { hi.oi with spec := ?_ }, hi.cK, hi.cnd, hi.ctau, fun t' => ?_⟩
  · intro t' o n hsp hn hv
    dsimp only at hsp
    by_cases ht : t' = t
    · subst ht; rw [upd_self, hp] at hsp; cases hsp
    · rw [upd_ne _ _ _ ht] at hsp; exact hi.oi.spec t' o n hsp hn hv
  · by_cases ht : t' = t
    · subst ht; simp only [upd_self]; exact hloc
    · simp only [upd_ne _ _ _ ht]; exact hi.loc t'

theorem WInv.skip {p' : PC α} (hq : quiet cfg (C.pc t) = some p') : Nxt cfg C c t C.s p' none := by
  have hl := hi.loc t
  generalize hp : C.pc t = p at hq hl
  unfold quiet at hq
  split at hq
  · split at hq <;> simp at hq
    rename_i hn
    subst hq
    simp only [Bool.and_eq_true] at hn
    obtain ⟨hh, ⟨b', hst, hb1, hb2⟩, -⟩ := hl
    exact ⟨g, gh, _, .neu hst (r := .pushed false) fun σ => .inr ⟨rfl, by simpa using hn.2, rfl⟩, hi.skipSt rfl ⟨hh, _, b', rfl, hb1, hb2⟩⟩
  · simp at hq
    subst hq
    obtain ⟨hh, j, b', hst, hb1, hb2⟩ := hl
    exact ⟨g, gh, _, .neu hst (r := .reserved) fun σ => rfl, hi.skipSt rfl ⟨hh, _, b', rfl, hb1, hb2⟩⟩
  · simp at hq

theorem WInv.step {ch w' p' e} (hs : wstep cfg true t C.s (C.pc t) ch = some (w', p', e)) (hok : okWFresh cfg C.s (C.pc t) ch) :
    Nxt cfg C c t w' p' (e.map evTr) := by
  have hver : ∀ H y x l o, C.pc t = .cCas H y x → casOf (C.pc t) = some (l, o) → (C.s.s.word l).v = o.v →
      fresh cfg C.s.s (C.pc t) → H.ver = C.s.top .head := by
    intro H y x l o hp hc hw hf
    rw [hp] at hc
    simp [casOf] at hc
    obtain ⟨rfl, rfl⟩ := hc
    exact hi.head_ver hp hw hf
  cases wtrans_of_wstep hs with
  | rmw hc hw hk h => exact hi.rmw hc hw hk hok h
  | racingC hc hw hn hk => exact absurd (hi.no_race hn fun H y x h => hver H y x _ _ h hc hw hok) hk
  | racing hc hn hk => exact absurd (hi.no_race hn fun H y x h => by rw [h] at hc; simp [casOf] at hc) hk
  | store h1 h2 h3 => exact hi.store h1 h3
  | garb h1 h2 => exact hi.garb h1 h2
  | plain h1 h2 h3 h4 h5 h6 => exact hi.plainC h1 h2 h3 h6 h5
  | read h1 h2 h3 => exact hi.read h1 h2 h3 hok
  | torn h1 h2 h3 h4 h5 => exact hi.torn h1 h2 h3 h4 h5
  | race h1 h2 => exact hi.race h1 h2
  | skip h => exact hi.skip h
  | post h => exact hi.post h
  | wait h1 h2 => exact hi.wait h1 h2

end

end Verif.Queue
