import Verif.Queue.WeakStep

/-!
# Queue under release/acquire memory: preservation of the invariant by loads (proof)
-/

namespace Verif.Queue
open Lin

variable {α : Type} {cfg : Cfg}

theorem upd_eta {β : Type} (f : Nat → β) (t : Nat) : upd f t (f t) = f := by
  funext n; simp only [upd_apply]; split <;> simp_all

/-- The step to `w'`, `p'` with stamped event `e` preserves the invariant. -/
def Nxt (cfg : Cfg) (C : WConf α) (c : QC α) (t : Nat) (w' : WSt α) (p' : PC α)
    (e : Option (Event (Op α) (Ret α) × (Nat × Nat))) : Prop :=
  ∃ g' gh' c', QMove cfg.fixed c e c' ∧ WInv cfg ⟨w', upd C.pc t p'⟩ g' gh' c'

section
variable {C : WConf α} {g : G} {gh : Gh} {c : QC α} (hi : WInv cfg C g gh c) {t : Nat}
include hi

/-- Steps that only change the view of `t`. -/
theorem WInv.views {w' : WSt α} {p' : PC α} {st : QStatus α} (hs : w'.s = C.s.s)
    (hmsg : w'.msg = C.s.msg) (htop : w'.top = C.s.top) (hpl : w'.pl = C.s.pl) (hacc : w'.acc = C.s.acc)
    (hvg : VG C.s.msg C.s.top (w'.view t)) (hle : (C.s.view t).Le (w'.view t)) (htick : (C.s.view t).vc t + 1 ≤ (w'.view t).vc t)
    (hposts : ∀ v ∈ w'.posts, v ∈ C.s.posts ∨ v = w'.view t)
    (hview : ∀ t', t' ≠ t → w'.view t' = C.s.view t' ∧ w'.dep t' = C.s.dep t')
    (hspec : ∀ o n, specSnap p' = some o → o.v.ptr = some n → o.ver = C.s.s.heap.poolVer →
      kn C.s.acc C.s.top gh ((w'.view t).join (w'.dep t)) n)
    (hloc : WLocal cfg w' g.F gh (w'.view t) (g.held t) st p') :
    WInv cfg ⟨w', upd C.pc t p'⟩ g gh { c with status := upd c.status t st } :=
  hi.still (lk := false) [] (by rw [hs]; exact hi.si) (by rw [hs]; exact .refl _ _ _ _) rfl hmsg htop hpl (fun l => by rw [hs]) hvg hle htick
    hposts hview (by rw [hs, hacc]; simp) (by simp) (fun _ h => .inl h) (fun _ h => h) hspec hloc

theorem WInv.readSt {l i ord p'} {st : QStatus α} (hvg : VG C.s.msg C.s.top (C.s.readView t l i ord))
    (hspec : ∀ o n, specSnap p' = some o → o.v.ptr = some n → o.ver = C.s.s.heap.poolVer →
      kn C.s.acc C.s.top gh (((C.s.recv t l i ord).view t).join ((C.s.recv t l i ord).dep t)) n)
    (hloc : WLocal cfg (C.s.recv t l i ord) g.F gh (C.s.readView t l i ord) (g.held t) st p') :
    WInv cfg ⟨C.s.recv t l i ord, upd C.pc t p'⟩ g gh { c with status := upd c.status t st } := by
  have hv : (C.s.recv t l i ord).view t = C.s.readView t l i ord := by simp [WSt.recv]
  refine hi.views rfl rfl rfl rfl rfl (by rw [hv]; exact hvg) (by rw [hv]; exact le_readView _ _ _ _ _)
    (by rw [hv]; exact vc_readView _ _ _ _ _) (fun v h => .inl h) (fun t' ht => ?_) hspec (by rw [hv]; exact hloc)
  constructor <;> simp [WSt.recv, upd_ne _ _ _ ht]

theorem WInv.readStay {l i ord p'} (hvg : VG C.s.msg C.s.top (C.s.readView t l i ord))
    (hspec : ∀ o n, specSnap p' = some o → o.v.ptr = some n → o.ver = C.s.s.heap.poolVer →
      kn C.s.acc C.s.top gh (((C.s.recv t l i ord).view t).join ((C.s.recv t l i ord).dep t)) n)
    (hloc : WLocal cfg (C.s.recv t l i ord) g.F gh (C.s.readView t l i ord) (g.held t) (c.status t) p') :
    Nxt cfg C c t (C.s.recv t l i ord) p' none := by
  refine ⟨g, gh, c, .stay c, ?_⟩
  have := hi.readSt hvg hspec hloc
  rw [upd_eta] at this
  exact this

/-- Reading the link of the `j`-th node. -/
theorem WInv.readLink {v : View Loc} {i j : Nat} (hv : VG C.s.msg C.s.top v) (hj : j ≤ gh.K) (hi' : gh.nu j ≤ i)
    (ht : i ≤ C.s.top (.next (gh.X j))) (hs : i ≤ v.seen (.next (gh.X j))) :
    j < v.seen .head ∨ ((C.s.msg (.next (gh.X j)) i).val = nmsg C.s gh j ∧ i = gh.nu j) ∨
      ((C.s.msg (.next (gh.X j)) i).val = lmsg C.s gh j ∧ Lk gh v j) := by
  by_cases h1 : i = gh.nu j
  · subst h1; exact .inr (.inl ⟨rfl, rfl⟩)
  · by_cases h2 : i = gh.nu j + 1
    · subst h2
      refine .inr (.inr ⟨rfl, ?_, hs⟩)
      have h3 := hi.m1.lastK
      by_cases h4 : j = gh.K
      · subst h4; omega
      · omega
    · exact .inl (hi.m1.F hv hj (by omega))

theorem WInv.read {l ord p' alt i} (hr : Rd (C.pc t) l ord (C.s.msg l i).val p') (h1 : (C.s.view t).seen l ≤ i) (h2 : i ≤ C.s.top l)
    (hok : okWFresh cfg C.s (C.pc t) (.read alt i)) : Nxt cfg C c t (C.s.recv t l i ord) p' none := by
  have hl := hi.loc t
  have hV := hi.vgt t
  have hle := le_readView C.s t l i ord
  have hse := seen_readView C.s t l i ord
  have hva : VG C.s.msg C.s.top (C.s.readView t l i .acquire) := hi.vg_read t h2
  have htok : l = .tail → TOk cfg.M gh (C.s.readView t l i ord) (C.s.msg .tail i).val := by
    rintro rfl
    rw [hi.m1.tval i h2]; exact ⟨rfl, hse⟩
  have hhok : l = .head → HOk cfg.M gh (C.s.readView t l i ord) (C.s.msg .head i).val := by
    rintro rfl
    rw [hi.m1.hval i h2]; exact ⟨rfl, hse⟩
  have htK := hi.m1.tK
  have hC := hi.m1.C hV
  have hVt := hV.1 .tail
  have hVh := hV.1 .head
  generalize hp : C.pc t = p at hr hl hok
  generalize hx : (C.s.msg l i).val = x at hr
  have hps : l = .pool → PSnap cfg C.s.s.heap g.F x := by
    rintro rfl; rw [← hx]; exact hi.oi.psn i h2
  have hsp : l = .pool → ord ≠ .relaxed → ∀ n, x.v.ptr = some n → x.ver = C.s.s.heap.poolVer →
      kn C.s.acc C.s.top gh (((C.s.recv t l i ord).view t).join ((C.s.recv t l i ord).dep t)) n := by
    rintro rfl ho n hn hv
    rw [← hx] at hn hv
    refine (hi.oi.cur i h2 n hn hv).mono ?_
    have : (C.s.recv t .pool i ord).dep t = (C.s.msg .pool i).view := by
      cases ord <;> simp [WSt.recv] at ho ⊢
    rw [this]; exact View.le_join_right _ _
  cases hr with
  | aload =>
    refine hi.readStay (VG.tick (VG.bump hV (by simp) h2) t) ?_ ?_
    · intro o n ho; simp only [specSnap, Option.some.injEq] at ho; subst ho; exact hsp rfl (by simp) n
    · exact ⟨hl.1, hl.2.1.mono hle, hps rfl⟩
  | acas =>
    refine hi.readStay hva ?_ ?_
    · intro o n ho; simp only [specSnap, Option.some.injEq] at ho; subst ho; exact hsp rfl (by simp) n
    · exact ⟨hl.1, hl.2.1.mono hle, hps rfl⟩
  | fload =>
    refine hi.readStay (VG.tick (VG.bump hV (by simp) h2) t) (by simp [specSnap]) ?_
    obtain ⟨h3, h4, h5, h6⟩ := hl
    refine ⟨h3, h4, trivial, ?_⟩
    split
    · exact h6.mono hle
    · obtain ⟨j, h6⟩ := h6; exact ⟨j, h6.mono hle⟩
  | fcas =>
    refine hi.readStay hva (by simp [specSnap]) ?_
    obtain ⟨h3, h4, h5, h6⟩ := hl
    refine ⟨h3, h4, trivial, ?_⟩
    split
    · exact h6.mono hle
    · obtain ⟨j, h6⟩ := h6; exact ⟨j, h6.mono hle⟩
  | @nload b v n =>
    obtain ⟨h3, h4, h5⟩ := hl
    have hn : g.own n = .thr t := (hi.si.heap.hmem t n).2 (by simp [h3])
    have hk := (hi.oi.thr n t hn).2.1
    have hit : i = C.s.top (.next n) := by omega
    refine hi.readStay (VG.tick (VG.bump hV (fun _ => by omega) h2) t) (by simp [specSnap]) ?_
    refine ⟨h3, h4.mono hle, h5, ?_⟩
    show C.s.s.heap.next n = x.v
    rw [hi.next_eq, ← hit, hx]
  | pTail =>
    refine hi.readStay hva (by simp [specSnap]) ⟨WPN.mono hl hle, ?_⟩
    rw [← hx]; exact htok rfl
  | @pNext n T m _ hm =>
    obtain ⟨h3, h4⟩ := hl
    have hm' : m = gh.X T.ver := by
      have := h4.1; rw [this] at hm; simpa using hm.symm
    subst hm'
    refine hi.readStay hva (by simp [specSnap]) ⟨WPN.mono h3 hle, h4.mono hle, ?_⟩
    have h5 := h4.2
    have h6 := hi.m1.E hV h5
    rcases hi.readLink hva (by omega) (Nat.le_trans h6 h1) h2 hse with h | ⟨h, _⟩ | ⟨h, h'⟩
    · exact .inl (Nat.lt_of_lt_of_le h (hi.m1.C hva))
    · exact .inr (.inl (by rw [← hx]; exact h))
    · exact .inr (.inr ⟨by rw [← hx]; exact h, h'⟩)
  | @pCheckT n T N _ hT =>
    obtain ⟨h3, h4, h5⟩ := hl
    have hf : cfg.M = 0 ∨ C.s.s.tailVer < T.ver + cfg.M := hok rfl
    rw [hi.tailVer] at hf
    have hver : i = T.ver := by
      refine ver_eq_of_fresh (M := cfg.M) (Nat.le_trans h4.2 h1) (by omega) ?_
      rw [← hx, hi.m1.tval i h2, h4.1] at hT
      exact (Tagged.mk.inj hT).2
    have h6 : T.ver ≤ gh.K := by omega
    rcases h5 with h5 | h5 | ⟨h5, h7⟩
    · omega
    · have h8 : N.v.ptr = none := by rw [h5]; exact (hi.m1.nul _ h6).2
      have h9 : (pBranch n T N : PC α) = .pCas n T N := by simp [pBranch, h8]
      rw [h9]
      exact hi.readStay hva (by simp [specSnap]) ⟨WPN.mono h3 hle, h4.mono hle, h5⟩
    · have h8 : N.v.ptr = some (gh.X (T.ver + 1)) := by rw [h5]; exact (hi.m1.lnk _ h7.1).2.1
      have h9 : (pBranch n T N : PC α) = .swing (.retryPush n) T (gh.X (T.ver + 1)) := by simp [pBranch, h8]
      rw [h9]
      exact hi.readStay hva (by simp [specSnap]) ⟨h4.mono hle, h7.mono hle, rfl, WPN.mono h3 hle⟩
  | pCheckF => exact hi.readStay hva (by simp [specSnap]) (WPN.mono hl.1 hle)
  | pCas => exact hi.readStay hva (by simp [specSnap]) (WPN.mono hl.1 hle)
  | @swing k T y _ hne =>
    obtain ⟨h3, h4, h5, h6⟩ := hl
    cases k with
    | retryPush n => exact hi.readStay hva (by simp [onSwung, specSnap]) (WPN.mono h6 hle)
    | retryPop => exact hi.readStay hva (by simp [onSwung, specSnap]) ⟨h6.1, h6.2.mono hle⟩
    | donePush =>
      obtain ⟨h7, o, h8⟩ := h6
      refine hi.readStay hva (by simp [onSwung, specSnap]) ⟨h7, o, (0, T.ver + 1), h8, Nat.zero_le _, ?_⟩
      have : i ≠ T.ver := by
        intro he
        rw [← hx, hi.m1.tval i h2, he] at hne
        exact hne (by conv => rhs; rw [h3.1])
      have := h3.2
      show T.ver + 1 ≤ _
      omega
  | cHead =>
    refine hi.readStay hva (by simp [specSnap]) ⟨hl.1, by rw [← hx]; exact hhok rfl, ?_⟩
    obtain ⟨b, h3, h4, h5⟩ := hl.2
    refine ⟨b, h3, ?_, Nat.le_trans h5 (hle.1 _)⟩
    rw [← hx, hi.m1.hval i h2]; exact Nat.le_trans h4 h1
  | @cTail H =>
    obtain ⟨h3, h4, b, h5, h6, h7⟩ := hl
    have hxv : x.ver = i := by rw [← hx, hi.m1.tval i h2]
    refine hi.readStay hva (by simp [specSnap]) ⟨h3, h4.mono hle, by rw [← hx]; exact htok rfl, ⟨b, h5, h6, ?_⟩, ?_⟩
    · rw [hxv]; exact Nat.le_trans h7 h1
    · rw [hxv]; exact Nat.le_trans ((hV.2 .head (by simp) _ h4.2).1 .tail) h1
  | @cNext H T m _ hm =>
    obtain ⟨h3, h4, h5, h6, h7⟩ := hl
    have hm' : m = gh.X H.ver := by
      have := h4.1; rw [this] at hm; simpa using hm.symm
    subst hm'
    refine hi.readStay hva (by simp [specSnap]) ⟨h3, h4.mono hle, h5.mono hle, h6, h7, ?_⟩
    have h8 := h4.2
    have h9 := hi.m1.E hV (j := H.ver) (by omega)
    rcases hi.readLink hva (by omega) (Nat.le_trans h9 h1) h2 hse with h | ⟨h, h'⟩ | ⟨h, h'⟩
    · exact .inl h
    · refine .inr (.inl ⟨by rw [← hx]; exact h, ?_⟩)
      apply Nat.le_of_not_lt
      intro hlt
      have h10 := hi.m1.D hV (j := H.ver) (by have := h5.2; omega)
      omega
    · exact .inr (.inr ⟨by rw [← hx]; exact h, h'⟩)
  | @cCheckT H T N _ hT =>
    obtain ⟨h3, h4, h5, ⟨b, h6, hb1, hb2⟩, h7, h8⟩ := hl
    have hf : cfg.M = 0 ∨ C.s.s.headVer < H.ver + cfg.M := hok rfl
    rw [hi.headVer] at hf
    have hver : i = H.ver := by
      refine ver_eq_of_fresh (M := cfg.M) (Nat.le_trans h4.2 h1) (by omega) ?_
      rw [← hx, hi.m1.hval i h2, h4.1] at hT
      exact (Tagged.mk.inj hT).2
    have hHs := h4.2
    have hTs := h5.2
    have hHK : H.ver ≤ gh.K := by omega
    have hHp : H.v.ptr = some (gh.X H.ver) := by conv => lhs; rw [h4.1]
    have hTp : T.v.ptr = some (gh.X T.ver) := by conv => lhs; rw [h5.1]
    have hHT : H.ver ≤ T.ver := Nat.le_trans (hi.m1.hT _ (by omega)) h7
    have hpend : PendQ (C.s.readView t .head i .acquire) (c.status t) .pop :=
      ⟨b, h6, Nat.le_trans (Nat.le_trans hb1 h4.2) (hle.1 _), Nat.le_trans (Nat.le_trans hb2 h5.2) (hle.1 _)⟩
    have heq : gh.X H.ver = gh.X T.ver → T.ver = H.ver := by
      intro he
      apply Nat.le_antisymm _ hHT
      apply Nat.le_of_not_lt
      intro hlt
      have h9 := hi.m1.ord _ _ hlt (by omega) he
      have h10 := hi.m1.E hV hTs
      rw [← he] at h10
      have h11 := hi.m1.F hV hHK (by omega)
      omega
    rcases h8 with h8 | ⟨h8, h9⟩ | ⟨h8, h9⟩
    · omega
    · have h10 : N.v.ptr = none := by rw [h8]; exact (hi.m1.nul _ hHK).2
      have h11 : T.ver = H.ver := by omega
      have h12 : (cBranch H T N : PC α) = .ret (.popped none) := by simp [cBranch, h10, hHp, hTp, h11]
      rw [h12]
      have h13 : H.ver ≤ C.s.top .head := by omega
      refine ⟨g, gh, _, .emp (k := H.ver) h6 hb1 (by omega) (by rw [hi.cnd]; exact h13) (by rw [hi.ctau _ h13]; omega), ?_⟩
      refine hi.readSt hva (by simp [specSnap]) ⟨h3, _, (H.ver, 0), rfl, ?_, Nat.zero_le _⟩
      exact Nat.le_trans hHs (hle.1 _)
    · have h10 : N.v.ptr = some (gh.X (H.ver + 1)) := by rw [h8]; exact (hi.m1.lnk _ h9.1).2.1
      by_cases hp' : gh.X H.ver = gh.X T.ver
      · have h11 := heq hp'
        have h12 : (cBranch H T N : PC α) = .swing .retryPop T (gh.X (T.ver + 1)) := by simp [cBranch, h10, hHp, hTp, h11]
        rw [h12]
        exact hi.readStay hva (by simp [specSnap]) ⟨h5.mono hle, by rw [h11]; exact h9.mono hle, rfl, h3, hpend⟩
      · have h12 : (cBranch H T N : PC α) = .cData H (gh.X (H.ver + 1)) := by simp [cBranch, h10, hHp, hTp, hp']
        rw [h12]
        refine hi.readStay hva (by simp [specSnap]) ⟨h3, h4.mono hle, h9.mono hle, rfl, ?_, hpend⟩
        have : H.ver ≠ T.ver := fun h => hp' (by rw [h])
        refine Nat.lt_of_lt_of_le ?_ (hle.1 _)
        omega
  | @cCheckF H T N =>
    obtain ⟨h3, h4, h5, ⟨b, h6, hb1, hb2⟩, h7, h8⟩ := hl
    exact hi.readStay hva (by simp [specSnap]) ⟨h3, b, h6, Nat.le_trans (Nat.le_trans hb1 h4.2) (hle.1 _),
      Nat.le_trans (Nat.le_trans hb2 h5.2) (hle.1 _)⟩
  | cCas =>
    obtain ⟨h3, h4, h5, h6, h7, h8, h9⟩ := hl
    exact hi.readStay hva (by simp [specSnap]) ⟨h3, h8.mono hle⟩
  | eHead => exact hi.readStay hva (by simp [specSnap]) ⟨hl.1, hl.2.mono hle⟩
  | eHead' => exact hi.readStay hva (by simp [specSnap]) ⟨hl.1, hl.2.mono hle⟩
  | @eTail _ _ bb =>
    obtain ⟨h3, b, h4, h5, h6⟩ := hl
    refine ⟨g, gh, _, .neu (r := .isEmpty bb) h4 (fun σ => rfl), ?_⟩
    exact hi.readSt hva (by simp [specSnap]) ⟨h3, _, b, rfl, Nat.le_trans h5 (hle.1 _), Nat.le_trans h6 (hle.1 _)⟩
  | @eHead2 _ _ bb =>
    obtain ⟨h3, b, h4, h5, h6⟩ := hl
    refine ⟨g, gh, _, .neu (r := .isEmpty bb) h4 (fun σ => rfl), ?_⟩
    exact hi.readSt hva (by simp [specSnap]) ⟨h3, _, b, rfl, Nat.le_trans h5 (hle.1 _), Nat.le_trans h6 (hle.1 _)⟩

theorem WInv.torn {k i n x f} (hr : tornOf (C.pc t) = some (n, f)) (h0 : (C.s.view t).seen (.next n) ≤ k) (h1 : k ≤ i)
    (h2 : i ≤ C.s.top (.next n)) (hpl : C.s.pl n k = true) :
    Nxt cfg C c t (C.s.recv t (.next n) i .acquire) (f ⟨x, (C.s.msg (.next n) i).val.ver⟩) none := by
  have hl := hi.loc t
  have hV := hi.vgt t
  have hle := le_readView C.s t (.next n) i .acquire
  have hse := seen_readView C.s t (.next n) i .acquire
  have hva : VG C.s.msg C.s.top (C.s.readView t (.next n) i .acquire) := hi.vg_read t h2
  have htK := hi.m1.tK
  have hC := hi.m1.C hV
  have hVt := hV.1 .tail
  generalize hp : C.pc t = p at hr hl
  have key : ∀ j, n = gh.X j → j ≤ (C.s.view t).seen .tail → j < (C.s.readView t (.next n) i .acquire).seen .head := by
    rintro j rfl hj
    have h3 := hi.m1.E hV hj
    have h4 := (hi.m1.plok _ _ hpl).2 j (by omega) rfl
    exact hi.m1.F hva (by omega) (by omega)
  cases p with
  | pNext m T =>
    simp [tornOf] at hr
    obtain ⟨n, hm, rfl, rfl⟩ := hr
    obtain ⟨h3, h4⟩ := hl
    have hm' : n = gh.X T.ver := by
      have := h4.1; rw [this] at hm; simpa using hm.symm
    refine hi.readStay hva (by simp [specSnap]) ⟨WPN.mono h3 hle, h4.mono hle, .inl ?_⟩
    exact Nat.lt_of_lt_of_le (key _ hm' h4.2) (hi.m1.C hva)
  | cNext H T =>
    simp [tornOf] at hr
    obtain ⟨n, hm, rfl, rfl⟩ := hr
    obtain ⟨h3, h4, h5, h6, h7⟩ := hl
    have hm' : n = gh.X H.ver := by
      have := h4.1; rw [this] at hm; simpa using hm.symm
    exact hi.readStay hva (by simp [specSnap]) ⟨h3, h4.mono hle, h5.mono hle, h6, h7, .inl (key _ hm' (Nat.le_trans h4.2 hC))⟩
  | _ => simp [tornOf] at hr

theorem WInv.race {n k x} (hr : specOf (C.pc t) = some (n, k))
    (hn : ¬ (((C.s.view t).join (C.s.dep t)).knows (C.s.acc n) = true ∧
      C.s.top (.next n) ≤ ((C.s.view t).join (C.s.dep t)).seen (.next n))) :
    Nxt cfg C c t (C.s.plain t [] C.s.s) (k x) none := by
  have hl := hi.loc t
  have hsp := hi.oi.spec t
  generalize hp : C.pc t = p at hr hl hsp
  cases p with
  | alloc b v a =>
    cases a <;> simp [specOf] at hr
    rename_i o
    obtain ⟨n, hm, rfl, rfl⟩ := hr
    refine ⟨g, gh, c, .stay c, ?_⟩
    have hvt : (C.s.plain t [] C.s.s).view t = (C.s.view t).tick t := by simp [WSt.plain]
    have := hi.views (w' := C.s.plain t [] C.s.s) (p' := .alloc b v (.cas o x)) (st := c.status t) (t := t) rfl rfl rfl rfl (touched_nil C.s t)
      (by rw [hvt]; exact hi.vg_tick t) (by rw [hvt]; exact View.le_tick _ _) (by rw [hvt]; simp [View.tick_vc_self])
      (fun v h => .inl h) (fun t' ht => ⟨by simp [WSt.plain, upd_ne _ _ _ ht], rfl⟩) (by simp [specSnap]) ?_
    · rw [upd_eta] at this; exact this
    · refine ⟨hl.1, hl.2.1.mono (by rw [hvt]; exact View.le_tick _ _), hl.2.2, n, hm, fun he => ?_⟩
      have := hsp o n rfl hm he
      exact absurd ⟨this.1, this.2.1⟩ hn
  | _ => simp [specOf] at hr

theorem WInv.post (hp : C.pc t = .idle) :
    Nxt cfg C c t { C.s with view := upd C.s.view t ((C.s.view t).tick t), posts := C.s.posts ++ [(C.s.view t).tick t] } .idle none := by
  have hl := hi.loc t
  rw [hp] at hl
  refine ⟨g, gh, c, .stay c, ?_⟩
  have := hi.views (w' := { C.s with view := upd C.s.view t ((C.s.view t).tick t), posts := C.s.posts ++ [(C.s.view t).tick t] })
    (p' := .idle) (st := c.status t) (t := t) rfl rfl rfl rfl rfl
    (by simp only [upd_self]; exact hi.vg_tick t) (by simp only [upd_self]; exact View.le_tick _ _) (by simp only [upd_self]; simp [View.tick_vc_self])
    (fun v h => by simpa using h) (fun t' ht => ⟨by simp [upd_ne _ _ _ ht], rfl⟩) (by simp [specSnap]) hl
  rw [upd_eta] at this; exact this

theorem WInv.wait {k : Nat} {v} (hp : C.pc t = .idle) (hk : C.s.posts[k]? = some v) :
    Nxt cfg C c t { C.s with view := upd C.s.view t (((C.s.view t).join v).tick t) } .idle none := by
  have hl := hi.loc t
  rw [hp] at hl
  refine ⟨g, gh, c, .stay c, ?_⟩
  have := hi.views (w' := { C.s with view := upd C.s.view t (((C.s.view t).join v).tick t) })
    (p' := .idle) (st := c.status t) (t := t) rfl rfl rfl rfl rfl
    (by simp only [upd_self]; exact ((hi.vgt t).join (hi.vg v (.post (List.mem_of_getElem? hk)))).tick t)
    (by simp only [upd_self]; exact (View.le_join_left _ _).trans (View.le_tick _ _))
    (by simp only [upd_self]; simp [View.tick_vc_self, View.join]; omega)
    (fun v h => .inl h) (fun t' ht => ⟨by simp [upd_ne _ _ _ ht], rfl⟩) (by simp [specSnap]) hl
  rw [upd_eta] at this; exact this

end

end Verif.Queue
