import Verif.Queue.WeakInv

/-!
# Queue under release/acquire memory: preservation of the invariant, by shape of step (proof)
-/

namespace Verif.Queue
open Lin

variable {α : Type} {cfg : Cfg}

/-- Nodes which a step of `t` leaves alone: free nodes, nodes of other threads, nodes that do not exist. -/
def Quiet (t : Nat) (g g' : G) (n : Nat) : Prop :=
  g.own n = .free ∨ (∃ t', t' ≠ t ∧ g.own n = .thr t') ∨ (g.own n = .raw ∧ g'.own n = .raw)

theorem Quiet.ne_thr {t : Nat} {g g' : G} {n} (h : Quiet t g g' n) : g.own n ≠ .thr t := by
  rcases h with h | ⟨t', h1, h2⟩ | ⟨h, _⟩
  · rw [h]; simp
  · rw [h2]; simp [h1]
  · rw [h]; simp

theorem Quiet.ne_str {t : Nat} {g g' : G} {n} (h : Quiet t g g' n) : g.own n ≠ .str := by
  rcases h with h | ⟨t', h1, h2⟩ | ⟨h, _⟩
  · rw [h]; simp
  · rw [h2]; simp
  · rw [h]; simp

/-- Nodes unchanged by a step. -/
structure Same (w w' : WSt α) (gh gh' : Gh) (n : Nat) : Prop where
  acc : w'.acc n = w.acc n
  top : w'.top (.next n) = w.top (.next n)
  pl : w'.pl n = w.pl n
  X : ∀ i ≤ gh'.K, gh'.X i = n → i ≤ gh.K

section
variable {w w' : WSt α} {gh gh' : Gh} {n : Nat} {v : View Loc}

theorem Same.kn (h : Same w w' gh gh' n) (he : Ext w.msg w.top gh w'.msg w'.top gh') (hk : kn w.acc w.top gh v n) :
    kn w'.acc w'.top gh' v n := by
  obtain ⟨h1, h2, h3⟩ := hk
  refine ⟨by rw [h.acc]; exact h1, by rw [h.top]; exact h2, fun i hi hx => ?_⟩
  have h4 := h.X i hi hx
  rw [he.X i h4] at hx
  exact h3 i h4 hx

end

/-- The part of the invariant about nodes. -/
theorem OI.next {w w' : WSt α} {pc : Nat → PC α} {p' : PC α} {t : Nat} {lk : Bool} {g g' : G} {gh gh' : Gh} {σ σ' : List α}
    (hi : OI cfg w pc g gh) (si : SI cfg w.s g σ) (si' : SI cfg w'.s g' σ') (hg : Guar lk t w.s g w'.s g')
    (he : Ext w.msg w.top gh w'.msg w'.top gh')
    (hps : ∀ t' o, specSnap (pc t') = some o → PSnap cfg w.s.heap g.F o)
    (hview : ∀ t', t' ≠ t → w'.view t' = w.view t' ∧ w'.dep t' = w.dep t')
    (hq : ∀ n, Quiet t g g' n → Same w w' gh gh' n)
    (hthr : ∀ n, g'.own n = .thr t → kn w'.acc w'.top gh' (w'.view t) n)
    (hpool : (w'.top .pool = w.top .pool ∧ w'.s.heap.poolVer = w.s.heap.poolVer ∧ ∀ n, g'.own n = .free → g.own n = .free) ∨
      (w'.top .pool = w.top .pool + 1 ∧ (w'.msg .pool (w.top .pool + 1)).val = w'.s.heap.poolSnap ∧
        (w.msg .pool (w.top .pool)).view.Le (w'.msg .pool (w.top .pool + 1)).view ∧
        ∀ n, g'.own n = .free → g.own n = .free ∨ kn w'.acc w'.top gh' (w'.msg .pool (w.top .pool + 1)).view n))
    (hspec : ∀ o n, specSnap p' = some o → o.v.ptr = some n → o.ver = w'.s.heap.poolVer →
      kn w'.acc w'.top gh' ((w'.view t).join (w'.dep t)) n)
    (hstr : ∀ i, w'.top .head < i → i ≤ gh'.K → (w'.msg (.next (gh'.X i)) (gh'.nu i)).view.knows (w'.acc (gh'.X i)) = true)
    (hdum : (w'.msg .head (w'.top .head)).view.knows (w'.acc (gh'.X (w'.top .head))) = true) :
    OI cfg w' (upd pc t p') g' gh' := by
  have hoth : ∀ t', t' ≠ t → ∀ n, g'.own n = .thr t' → g.own n = .thr t' := by
    intro t' ht n hn
    rw [si'.heap.hmem, hg.others t' ht, ← si.heap.hmem] at hn; exact hn
  have hfree : ∀ n, g'.own n = .free → kn w'.acc w'.top gh' (w'.msg .pool (w'.top .pool)).view n := by
    intro n hn
    rcases hpool with ⟨h1, h2, h3⟩ | ⟨h1, h2, h3, h4⟩
    · have h5 := h3 n hn
      rw [h1, he.msg _ _ (Nat.le_refl _)]
      exact (hq n (.inl h5)).kn he (hi.free n h5)
    · rw [h1]
      rcases h4 n hn with h5 | h5
      · exact ((hq n (.inl h5)).kn he (hi.free n h5)).mono h3
      · exact h5
  have hold : ∀ o n, PSnap cfg w.s.heap g.F o → o.v.ptr = some n → o.ver = w'.s.heap.poolVer →
      o.ver = w.s.heap.poolVer ∧ Quiet t g g' n := by
    intro o n hp hn hv
    have := hp.1
    have := hg.pver
    have h1 : o.ver = w.s.heap.poolVer := by omega
    exact ⟨h1, .inl ((si.heap.fmem n).2 ((hp.2.2 n hn).2 h1))⟩
  have htop : ∀ i ≤ w'.top .pool, i ≤ w.top .pool ∨ (i = w'.top .pool ∧ (w'.msg .pool i).val = w'.s.heap.poolSnap) := by
    intro i hi'
    rcases hpool with ⟨h1, _⟩ | ⟨h1, h2, _⟩
    · left; omega
    · by_cases h3 : i = w.top .pool + 1
      · right; exact ⟨by omega, by rw [h3]; exact h2⟩
      · left; omega
  constructor
  · intro n t' hn
    by_cases ht : t' = t
    · subst ht; exact hthr n hn
    · have h1 := hoth t' ht n hn
      rw [(hview t' ht).1]
      exact (hq n (.inr (.inl ⟨t', ht, h1⟩))).kn he (hi.thr n t' h1)
  · exact hfree
  · intro n hn
    have h0 : g.own n = .raw := by
      rw [si'.heap.raw] at hn
      rw [si.heap.raw]; exact Nat.le_trans hg.nalloc hn
    obtain ⟨h1, h2, h3, h4, h5⟩ := hi.raw n h0
    have h6 := hq n (.inr (.inr ⟨h0, hn⟩))
    have h7 := (hg.frame n (by rw [h0]; simp) (by rw [hn]; simp)).2
    rw [h0] at h7; simp at h7
    refine ⟨by rw [h6.acc]; exact h1, by rw [h6.top]; exact h2, by rw [h7.1]; exact h3, by rw [h7.2]; exact h4, fun i hi' hx => ?_⟩
    have h8 := h6.X i hi' hx
    rw [he.X i h8] at hx
    exact h5 i h8 hx
  · intro i hi'
    rcases htop i hi' with h1 | ⟨_, h1⟩
    · rw [he.msg _ _ h1]; exact (hi.psn i h1).mono hg.nalloc hg.pver hg.pF
    · rw [h1]; exact si'.heap.poolSnap
  · intro i hi' n hn hv
    rcases htop i hi' with h1 | ⟨h0, h1⟩
    · rw [he.msg _ _ h1] at hn hv ⊢
      obtain ⟨h2, h3⟩ := hold _ n (hi.psn i h1) hn hv
      exact (hq n h3).kn he (hi.cur i h1 n hn h2)
    · subst h0
      refine hfree n ((si'.heap.fmem n).2 ?_)
      rw [h1] at hn
      exact si'.heap.chain.mem_some hn
  · intro t' o n ho hn hv
    by_cases ht : t' = t
    · subst ht; rw [upd_self] at ho; exact hspec o n ho hn hv
    · rw [upd_ne _ _ _ ht] at ho
      rw [(hview t' ht).1, (hview t' ht).2]
      obtain ⟨h2, h3⟩ := hold _ n (hps t' o ho) hn hv
      exact (hq n h3).kn he (hi.spec t' o n ho hn h2)
  · exact hstr
  · exact hdum

/-! ### Facts about a state that satisfies the invariant -/

section
variable {C : WConf α} {g : G} {gh : Gh} {c : QC α} (hi : WInv cfg C g gh c)
include hi

theorem WInv.headSnap : C.s.s.headSnap = ⟨⟨some (gh.X (C.s.top .head)), C.s.top .head % cfg.M⟩, C.s.top .head⟩ := by
  have h := hi.last .head
  rw [hi.m1.hval _ (Nat.le_refl _)] at h
  exact h.symm

theorem WInv.tailSnap : C.s.s.tailSnap = ⟨⟨some (gh.X (C.s.top .tail)), C.s.top .tail % cfg.M⟩, C.s.top .tail⟩ := by
  have h := hi.last .tail
  rw [hi.m1.tval _ (Nat.le_refl _)] at h
  exact h.symm

theorem WInv.headVer : C.s.s.headVer = C.s.top .head := congrArg Snap.ver hi.headSnap

theorem WInv.tailVer : C.s.s.tailVer = C.s.top .tail := congrArg Snap.ver hi.tailSnap

theorem WInv.headPtr : C.s.s.head.ptr = some (gh.X (C.s.top .head)) := congrArg (fun s => s.v.ptr) hi.headSnap

theorem WInv.tailPtr : C.s.s.tail.ptr = some (gh.X (C.s.top .tail)) := congrArg (fun s => s.v.ptr) hi.tailSnap

theorem WInv.next_eq (n : Nat) : C.s.s.heap.next n = (C.s.msg (.next n) (C.s.top (.next n))).val.v :=
  (congrArg Snap.v (hi.last (.next n))).symm

theorem WInv.nver_eq (n : Nat) : C.s.s.heap.nver n = (C.s.msg (.next n) (C.s.top (.next n))).val.ver :=
  (congrArg Snap.ver (hi.last (.next n))).symm

theorem WInv.hK : C.s.top .head ≤ gh.K := Nat.le_trans hi.m1.ht hi.m1.tK

theorem WInv.X_mem {i : Nat} (h1 : C.s.top .head ≤ i) (h2 : i ≤ gh.K) : gh.X i ∈ g.L := by
  rw [hi.gl]
  exact List.mem_map.2 ⟨i, by rw [List.mem_range'_1]; omega, rfl⟩

theorem WInv.X_str {i : Nat} (h1 : C.s.top .head ≤ i) (h2 : i ≤ gh.K) : g.own (gh.X i) = .str :=
  (hi.si.mem _).2 (hi.X_mem h1 h2)

theorem WInv.str_X {n : Nat} (h : g.own n = .str) : ∃ i, C.s.top .head ≤ i ∧ i ≤ gh.K ∧ gh.X i = n := by
  have h1 := (hi.si.mem n).1 h
  rw [hi.gl] at h1
  obtain ⟨i, h2, h3⟩ := List.mem_map.1 h1
  rw [List.mem_range'_1] at h2
  have := hi.hK
  exact ⟨i, h2.1, by omega, h3⟩

theorem WInv.X_lt {i : Nat} (h2 : i ≤ gh.K) (h : g.own (gh.X i) ≠ .str) : i < C.s.top .head := by
  apply Nat.lt_of_not_le
  intro h1
  exact h (hi.X_str h1 h2)

theorem WInv.getLast : g.L.getLast? = some (gh.X gh.K) := by
  have := hi.hK
  rw [hi.gl, List.getLast?_map, show gh.K + 1 - C.s.top .head = (gh.K - C.s.top .head) + 1 by omega, List.range'_concat,
    List.getLast?_append]
  simp
  congr 1; omega

theorem WInv.vgt (t : Nat) : VG C.s.msg C.s.top (C.s.view t) := hi.vg _ (.thread t)

theorem WInv.psnap (t : Nat) (o : Snap) (h : specSnap (C.pc t) = some o) : PSnap cfg C.s.s.heap g.F o := by
  have hl := hi.loc t
  revert hl h
  generalize C.pc t = p
  intro h hl
  cases p with
  | alloc b v a =>
    cases a <;> simp [specSnap] at h
    subst h; exact hl.2.2
  | _ => simp [specSnap] at h

/-- Assembly of the invariant after a step of `t`. -/
theorem WInv.next {t : Nat} {w' : WSt α} {p' : PC α} {lk : Bool} {g' : G} {gh' : Gh} {c' : QC α}
    (si' : SI cfg w'.s g' (c'.vals.drop c'.nd)) (hg : Guar lk t C.s.s g w'.s g')
    (gl' : g'.L = (List.range' (w'.top .head) (gh'.K + 1 - w'.top .head)).map gh'.X)
    (m1' : M1 cfg.M w'.msg w'.top w'.pl gh') (last' : ∀ l, (w'.msg l (w'.top l)).val = w'.s.word l)
    (he : Ext C.s.msg C.s.top gh w'.msg w'.top gh') (hvg : VG w'.msg w'.top (w'.view t))
    (hhas : ∀ v, w'.Has v → C.s.Has v ∨ v = w'.view t)
    (hview : ∀ t', t' ≠ t → w'.view t' = C.s.view t' ∧ w'.dep t' = C.s.dep t')
    (hq : ∀ n, Quiet t g g' n → Same C.s w' gh gh' n)
    (hthr : ∀ n, g'.own n = .thr t → kn w'.acc w'.top gh' (w'.view t) n)
    (hpool : (w'.top .pool = C.s.top .pool ∧ w'.s.heap.poolVer = C.s.s.heap.poolVer ∧ ∀ n, g'.own n = .free → g.own n = .free) ∨
      (w'.top .pool = C.s.top .pool + 1 ∧ (w'.msg .pool (C.s.top .pool + 1)).val = w'.s.heap.poolSnap ∧
        (C.s.msg .pool (C.s.top .pool)).view.Le (w'.msg .pool (C.s.top .pool + 1)).view ∧
        ∀ n, g'.own n = .free → g.own n = .free ∨ kn w'.acc w'.top gh' (w'.msg .pool (C.s.top .pool + 1)).view n))
    (hspec : ∀ o n, specSnap p' = some o → o.v.ptr = some n → o.ver = w'.s.heap.poolVer →
      kn w'.acc w'.top gh' ((w'.view t).join (w'.dep t)) n)
    (hstr : ∀ i, w'.top .head < i → i ≤ gh'.K → (w'.msg (.next (gh'.X i)) (gh'.nu i)).view.knows (w'.acc (gh'.X i)) = true)
    (hdum : (w'.msg .head (w'.top .head)).view.knows (w'.acc (gh'.X (w'.top .head))) = true)
    (cK' : c'.vals.length = gh'.K) (cnd' : c'.nd = w'.top .head)
    (ctau' : ∀ k ≤ w'.top .head, c'.tau k = (w'.msg .head k).view.seen .tail)
    (hst : ∀ t', t' ≠ t → c'.status t' = c.status t')
    (hloc : WLocal cfg w' g'.F gh' (w'.view t) (g'.held t) (c'.status t) p') :
    WInv cfg ⟨w', upd C.pc t p'⟩ g' gh' c' := by
  refine ⟨si', gl', m1', last', ?_, hi.oi.next hi.si si' hg he hi.psnap hview hq hthr hpool hspec hstr hdum, cK', cnd', ctau', ?_⟩
  · intro v hv
    rcases hhas v hv with h | rfl
    · exact (hi.vg v h).ext he
    · exact hvg
  · intro t'
    by_cases ht : t' = t
    · subst ht; simp only [upd_self]; exact hloc
    · simp only [upd_ne _ _ _ ht]
      rw [(hview t' ht).1, hst t' ht, hg.others t' ht]
      have hr := hg.rely hi.si si' ht
      have hown : ∀ n ∈ g.held t', g.own n = .thr t' := fun n hn => (hi.si.heap.hmem t' n).2 hn
      refine WRely.stable ⟨he, hr.nalloc, hr.pver, hr.pF, hr.next, hr.data, fun n hn => ?_, fun h1 h2 => ?_⟩ hi.m1 (hi.vgt t') (hi.loc t')
      · have h1 := hq n (.inr (.inl ⟨t', ht, hown n hn⟩))
        exact ⟨h1.acc, h1.top, h1.pl, h1.X⟩
      · have h3 : w'.s.headVer = w'.top .head := by
          have h := last' .head
          rw [m1'.hval _ (Nat.le_refl _)] at h
          exact (congrArg Snap.ver h).symm
        refine (hr.hnx (by rw [h3, hi.headVer, h1]) _ _ hi.headPtr ?_).2
        rw [hi.next_eq, hi.m1.str _ (Nat.le_refl _) h2]
        exact (hi.m1.lnk _ h2).2.1

theorem WInv.touched {t : Nat} {ns : List Nat} {s' : St α} {g' : G} {σ'} (si' : SI cfg s' g' σ')
    (hns : ∀ n ∈ ns, g.own n = .thr t ∨ g.own n = .str) {n : Nat} (hq : Quiet t g g' n) :
    C.s.touched t ns s' n = C.s.acc n := by
  simp only [WSt.touched]
  split
  · exfalso
    rename_i h
    rcases h with h | ⟨h1, h2⟩
    · rcases hns n h with h | h
      · exact hq.ne_thr h
      · exact hq.ne_str h
    · have h3 := (hi.si.heap.raw n).2 h1
      rcases hq with h | ⟨t', _, h⟩ | ⟨_, h⟩
      · rw [h3] at h; simp at h
      · rw [h3] at h; simp at h
      · have := (si'.heap.raw n).1 h
        omega
  · rfl

theorem WInv.touched_ex {t : Nat} {ns : List Nat} {s' : St α} {n : Nat} (hn : n ∉ ns) (hx : g.own n ≠ .raw) :
    C.s.touched t ns s' n = C.s.acc n := by
  simp only [WSt.touched]
  split
  · exfalso
    rename_i h
    rcases h with h | ⟨h1, _⟩
    · exact hn h
    · exact hx ((hi.si.heap.raw n).2 h1)
  · rfl

end

theorem knows_cons {v : View Loc} {t k : Nat} {l : List (Nat × Nat)} : v.knows ((t, k) :: l) = true ↔ k ≤ v.vc t ∧ v.knows l = true := by
  simp [View.knows]

theorem knows_touched {w : WSt α} {t : Nat} {ns : List Nat} {s' : St α} {n : Nat} {v : View Loc}
    (h : v.knows (w.acc n) = true) (ht : (w.view t).vc t + 1 ≤ v.vc t) : v.knows (w.touched t ns s' n) = true := by
  simp only [WSt.touched]
  split
  · exact knows_cons.2 ⟨ht, h⟩
  · exact h

/-- Steps that write no message. -/
theorem WInv.still {C : WConf α} {g : G} {gh : Gh} {c : QC α} (hi : WInv cfg C g gh c) {t : Nat} {w' : WSt α} {p' : PC α}
    {lk : Bool} {g' : G} {st : QStatus α} (ns : List Nat)
    (si' : SI cfg w'.s g' (c.vals.drop c.nd)) (hg : Guar lk t C.s.s g w'.s g') (hL : g'.L = g.L)
    (hmsg : w'.msg = C.s.msg) (htop : w'.top = C.s.top) (hpl : w'.pl = C.s.pl) (hword : ∀ l, w'.s.word l = C.s.s.word l)
    (hvg : VG C.s.msg C.s.top (w'.view t)) (hle : (C.s.view t).Le (w'.view t)) (htick : (C.s.view t).vc t + 1 ≤ (w'.view t).vc t)
    (hposts : ∀ v ∈ w'.posts, v ∈ C.s.posts ∨ v = w'.view t)
    (hview : ∀ t', t' ≠ t → w'.view t' = C.s.view t' ∧ w'.dep t' = C.s.dep t')
    (hacc : w'.acc = C.s.touched t ns w'.s) (hns : ∀ n ∈ ns, g.own n = .thr t)
    (hown : ∀ n, g'.own n = .thr t → g.own n = .thr t ∨ g.own n = .raw) (hfree : ∀ n, g'.own n = .free → g.own n = .free)
    (hspec : ∀ o n, specSnap p' = some o → o.v.ptr = some n → o.ver = C.s.s.heap.poolVer →
      kn C.s.acc C.s.top gh ((w'.view t).join (w'.dep t)) n)
    (hloc : WLocal cfg w' g'.F gh (w'.view t) (g'.held t) st p') :
    WInv cfg ⟨w', upd C.pc t p'⟩ g' gh { c with status := upd c.status t st } := by
  have hpv : w'.s.heap.poolVer = C.s.s.heap.poolVer := congrArg Snap.ver (hword .pool)
  have hkn : ∀ {v n}, kn C.s.acc C.s.top gh v n → (C.s.view t).vc t + 1 ≤ v.vc t → kn w'.acc w'.top gh v n := by
    intro v n ⟨h1, h2, h3⟩ hv
    exact ⟨by rw [hacc]; exact knows_touched h1 hv, by rw [htop]; exact h2, h3⟩
  refine hi.next (lk := lk) si' hg (by rw [hL, htop]; exact hi.gl) (by rw [hmsg, htop, hpl]; exact hi.m1)
    (fun l => by rw [hmsg, htop, hi.last, hword]) (by rw [hmsg, htop]; exact .refl _ _ _) (by rw [hmsg, htop]; exact hvg) ?_ hview ?_ ?_
    (.inl ⟨by rw [htop], hpv, hfree⟩) ?_ ?_ ?_ hi.cK (by rw [htop]; exact hi.cnd) (by rw [htop, hmsg]; exact hi.ctau) ?_ (by simpa using hloc)
  · intro v hv
    cases hv with
    | thread t' =>
      by_cases ht : t' = t
      · subst ht; exact .inr rfl
      · rw [(hview t' ht).1]; exact .inl (.thread t')
    | msg l i h => rw [hmsg]; rw [htop] at h; exact .inl (.msg l i h)
    | post h =>
      rcases hposts v h with h | h
      · exact .inl (.post h)
      · exact .inr h
  · intro n hn
    exact ⟨by rw [hacc]; exact hi.touched si' (fun n h => .inl (hns n h)) hn, by rw [htop], by rw [hpl], fun i h _ => h⟩
  · intro n hn
    refine hkn ?_ htick
    rcases hown n hn with h | h
    · exact (hi.oi.thr n t h).mono hle
    · obtain ⟨h1, h2, _, _, h5⟩ := hi.oi.raw n h
      exact ⟨by rw [h1]; exact View.knows_nil _, by rw [h2]; exact Nat.zero_le _, fun i h6 h7 => absurd h7 (h5 i h6)⟩
  · intro o n h1 h2 h3
    rw [hpv] at h3
    exact hkn (hspec o n h1 h2 h3) (Nat.le_trans htick ((View.le_join_left _ _).2 _))
  · intro i h1 h2
    rw [htop] at h1
    have h3 := hi.X_str (Nat.le_of_lt h1) h2
    rw [hmsg, hacc, hi.touched_ex (fun h => by have := hns _ h; rw [h3] at this; simp at this) (by rw [h3]; simp)]
    exact hi.oi.strA i h1 h2
  · have h3 := hi.X_str (Nat.le_refl _) hi.hK
    rw [hmsg, htop, hacc, hi.touched_ex (fun h => by have := hns _ h; rw [h3] at this; simp at this) (by rw [h3]; simp)]
    exact hi.oi.dum
  · intro t' ht; simp [upd_ne _ _ _ ht]

/-- Steps that write a message to `l`. -/
theorem WInv.write {C : WConf α} {g : G} {gh : Gh} {c : QC α} (hi : WInv cfg C g gh c) {t : Nat} {w' : WSt α} {p' : PC α}
    {lk : Bool} {g' : G} {gh' : Gh} {c' : QC α} (ns : List Nat) (l : Loc)
    (si' : SI cfg w'.s g' (c'.vals.drop c'.nd)) (hg : Guar lk t C.s.s g w'.s g')
    (gl' : g'.L = (List.range' (w'.top .head) (gh'.K + 1 - w'.top .head)).map gh'.X)
    (m1' : M1 cfg.M w'.msg w'.top w'.pl gh')
    (hmsg : w'.msg = msgp C.s.msg C.s.top l ⟨w'.s.word l, w'.view t⟩) (htop : w'.top = topp C.s.top l)
    (hword : ∀ l', l' ≠ l → w'.s.word l' = C.s.s.word l')
    (hK : gh.K ≤ gh'.K) (hX : ∀ i ≤ gh.K, gh'.X i = gh.X i) (hnu : ∀ i ≤ gh.K, gh'.nu i = gh.nu i)
    (hvg : VG w'.msg w'.top (w'.view t)) (hposts : w'.posts = C.s.posts)
    (hview : ∀ t', t' ≠ t → w'.view t' = C.s.view t' ∧ w'.dep t' = C.s.dep t')
    (hacc : w'.acc = C.s.touched t ns w'.s) (hns : ∀ n ∈ ns, g.own n = .thr t ∨ g.own n = .str)
    (hpl : ∀ n, Quiet t g g' n → w'.pl n = C.s.pl n) (hl : ∀ n, l = .next n → g.own n = .thr t ∨ g.own n = .str)
    (hXq : ∀ n i, Quiet t g g' n → i ≤ gh'.K → gh'.X i = n → i ≤ gh.K)
    (hthr : ∀ n, g'.own n = .thr t → kn w'.acc w'.top gh' (w'.view t) n)
    (hpool : (l ≠ .pool ∧ ∀ n, g'.own n = .free → g.own n = .free) ∨
      (l = .pool ∧ (C.s.msg .pool (C.s.top .pool)).view.Le (w'.view t) ∧
        ∀ n, g'.own n = .free → g.own n = .free ∨ kn w'.acc w'.top gh' (w'.view t) n))
    (hspec : specSnap p' = none)
    (hstr : ∀ i, w'.top .head < i → i ≤ gh'.K → (w'.msg (.next (gh'.X i)) (gh'.nu i)).view.knows (w'.acc (gh'.X i)) = true)
    (hdum : (w'.msg .head (w'.top .head)).view.knows (w'.acc (gh'.X (w'.top .head))) = true)
    (cK' : c'.vals.length = gh'.K) (cnd' : c'.nd = w'.top .head)
    (ctau' : ∀ k ≤ w'.top .head, c'.tau k = (w'.msg .head k).view.seen .tail)
    (hst : ∀ t', t' ≠ t → c'.status t' = c.status t')
    (hloc : WLocal cfg w' g'.F gh' (w'.view t) (g'.held t) (c'.status t) p') :
    WInv cfg ⟨w', upd C.pc t p'⟩ g' gh' c' := by
  refine hi.next (lk := lk) si' hg gl' m1' ?_ (by rw [hmsg, htop]; exact .push hK hX hnu) hvg ?_ hview ?_ hthr ?_ ?_
    hstr hdum cK' cnd' ctau' hst hloc
  · intro l'
    rw [hmsg, htop]
    by_cases h : l' = l
    · subst h; rw [topp_self, msgp_new]
    · rw [topp_ne h, msgp_ne h, hi.last, hword l' h]
  · intro v hv
    cases hv with
    | thread t' =>
      by_cases ht : t' = t
      · subst ht; exact .inr rfl
      · rw [(hview t' ht).1]; exact .inl (.thread t')
    | msg l' i h =>
      rw [htop] at h
      rw [hmsg]
      rcases topp_cases h with h | ⟨rfl, rfl⟩
      · rw [msgp_old h]; exact .inl (.msg l' i h)
      · rw [msgp_new]; exact .inr rfl
    | post h => rw [hposts] at h; exact .inl (.post h)
  · intro n hn
    refine ⟨by rw [hacc]; exact hi.touched si' hns hn, ?_, hpl n hn, fun i => hXq n i hn⟩
    rw [htop, topp_ne]
    intro h
    rcases hl n h.symm with h | h
    · exact hn.ne_thr h
    · exact hn.ne_str h
  · rcases hpool with ⟨h1, h2⟩ | ⟨rfl, h2, h3⟩
    · exact .inl ⟨by rw [htop, topp_ne h1.symm], congrArg Snap.ver (hword .pool h1.symm), h2⟩
    · refine .inr ⟨by rw [htop, topp_self], by rw [hmsg, msgp_new]; rfl, ?_, ?_⟩
      · rw [hmsg, msgp_new]; exact h2
      · intro n hn
        rw [hmsg, msgp_new]; exact h3 n hn
  · intro o n h; rw [hspec] at h; simp at h

/-- Writes other than those of `link` and `pop`. -/
theorem WInv.write' {C : WConf α} {g : G} {gh : Gh} {c : QC α} (hi : WInv cfg C g gh c) {t : Nat} {w' : WSt α} {p' : PC α}
    {g' : G} {st : QStatus α} (ns : List Nat) (l : Loc) (hlh : l ≠ .head)
    (si' : SI cfg w'.s g' (c.vals.drop c.nd)) (hg : Guar false t C.s.s g w'.s g') (hL : g'.L = g.L)
    (m1' : M1 cfg.M w'.msg w'.top w'.pl gh)
    (hmsg : w'.msg = msgp C.s.msg C.s.top l ⟨w'.s.word l, w'.view t⟩) (htop : w'.top = topp C.s.top l)
    (hword : ∀ l', l' ≠ l → w'.s.word l' = C.s.s.word l')
    (hvg : VG w'.msg w'.top (w'.view t)) (hposts : w'.posts = C.s.posts)
    (hview : ∀ t', t' ≠ t → w'.view t' = C.s.view t' ∧ w'.dep t' = C.s.dep t')
    (hacc : w'.acc = C.s.touched t ns w'.s) (hns : ∀ n ∈ ns, g.own n = .thr t)
    (hpl : ∀ n, Quiet t g g' n → w'.pl n = C.s.pl n) (hl : ∀ n, l = .next n → g.own n = .thr t)
    (hthr : ∀ n, g'.own n = .thr t → kn w'.acc w'.top gh (w'.view t) n)
    (hpool : (l ≠ .pool ∧ ∀ n, g'.own n = .free → g.own n = .free) ∨
      (l = .pool ∧ (C.s.msg .pool (C.s.top .pool)).view.Le (w'.view t) ∧
        ∀ n, g'.own n = .free → g.own n = .free ∨ kn w'.acc w'.top gh (w'.view t) n))
    (hspec : specSnap p' = none)
    (hloc : WLocal cfg w' g'.F gh (w'.view t) (g'.held t) st p') :
    WInv cfg ⟨w', upd C.pc t p'⟩ g' gh { c with status := upd c.status t st } := by
  have hth : w'.top .head = C.s.top .head := by rw [htop, topp_ne hlh.symm]
  have hmh : w'.msg .head = C.s.msg .head := by rw [hmsg, msgp_ne hlh.symm]
  have hac : ∀ i, C.s.top .head ≤ i → i ≤ gh.K → w'.acc (gh.X i) = C.s.acc (gh.X i) := by
    intro i h1 h2
    have h3 := hi.X_str h1 h2
    rw [hacc, hi.touched_ex (fun h => by have := hns _ h; rw [h3] at this; simp at this) (by rw [h3]; simp)]
  refine hi.write ns l si' hg (by rw [hL, hth]; exact hi.gl) m1' hmsg htop hword (Nat.le_refl _) (fun _ _ => rfl) (fun _ _ => rfl) hvg
    hposts hview hacc (fun n h => .inl (hns n h)) hpl (fun n h => .inl (hl n h)) (fun _ _ _ h _ => h) hthr hpool hspec ?_ ?_ hi.cK
    (by rw [hth]; exact hi.cnd) (by rw [hth, hmh]; exact hi.ctau) ?_ (by simpa using hloc)
  · intro i h1 h2
    rw [hth] at h1
    rw [hac i (Nat.le_of_lt h1) h2, hmsg, msgp_old (hi.m1.nul i h2).1]
    exact hi.oi.strA i h1 h2
  · rw [hth, hmh, hac _ (Nat.le_refl _) hi.hK]; exact hi.oi.dum
  · intro t' ht; simp [upd_ne _ _ _ ht]

section
variable {C : WConf α} {g : G} {gh : Gh} {c : QC α} (hi : WInv cfg C g gh c) (t : Nat)
include hi

theorem WInv.vg_tick : VG C.s.msg C.s.top ((C.s.view t).tick t) := (hi.vgt t).tick t

theorem WInv.vg_read {l : Loc} {i : Nat} (h2 : i ≤ C.s.top l) :
    VG C.s.msg C.s.top (C.s.readView t l i .acquire) := by
  have h3 := (hi.vgt t).join (hi.vg _ (.msg l i h2))
  refine VG.tick (VG.bump h3 (fun h => ?_) h2) t
  exact Nat.le_trans (hi.m1.self l i h h2) ((View.le_join_right _ _).1 l)

theorem WInv.vg_rmw (l : Loc) (x : Snap) :
    VG (msgp C.s.msg C.s.top l ⟨x, C.s.rmwView t l⟩) (topp C.s.top l) (C.s.rmwView t l) := by
  have h3 := (hi.vgt t).join (hi.vg _ (.msg l _ (Nat.le_refl _)))
  exact VG.push h3 fun h => Nat.le_trans (hi.m1.self l _ h (Nat.le_refl _)) ((View.le_join_right _ _).1 l)

theorem WInv.vg_store {n : Nat} (h : C.s.top (.next n) ≤ (C.s.view t).seen (.next n)) (x : Snap) :
    VG (msgp C.s.msg C.s.top (.next n) ⟨x, C.s.storeView t (.next n)⟩) (topp C.s.top (.next n)) (C.s.storeView t (.next n)) :=
  VG.push (hi.vgt t) fun _ => h

end

section
variable (w : WSt α) (t : Nat) (l : Loc) (i : Nat)

theorem le_readView (ord) : (w.view t).Le (w.readView t l i ord) := by
  cases ord
  · exact (View.le_bump _ _ _).trans (View.le_tick _ _)
  · exact (View.le_bump _ _ _).trans (View.le_tick _ _)
  · exact ((View.le_join_left _ _).trans (View.le_bump _ _ _)).trans (View.le_tick _ _)

theorem msg_le_readView : (w.msg l i).view.Le (w.readView t l i .acquire) :=
  ((View.le_join_right _ _).trans (View.le_bump _ _ _)).trans (View.le_tick _ _)

theorem seen_readView (ord) : i ≤ (w.readView t l i ord).seen l := by
  cases ord <;> (show i ≤ (View.bump _ _ _).seen l; rw [bump_seen_self]; omega)

theorem seen_rmwView : w.top l + 1 ≤ (w.rmwView t l).seen l := by
  show _ ≤ (View.bump _ _ _).seen l
  rw [bump_seen_self]; omega

theorem le_rmwView : (w.view t).Le (w.rmwView t l) :=
  ((View.le_join_left _ _).trans (View.le_bump _ _ _)).trans (View.le_tick _ _)

theorem msg_le_rmwView : (w.msg l (w.top l)).view.Le (w.rmwView t l) :=
  ((View.le_join_right _ _).trans (View.le_bump _ _ _)).trans (View.le_tick _ _)

theorem le_storeView : (w.view t).Le (w.storeView t l) := (View.le_bump _ _ _).trans (View.le_tick _ _)

theorem seen_storeView : w.top l + 1 ≤ (w.storeView t l).seen l := by
  show _ ≤ (View.bump _ _ _).seen l
  rw [bump_seen_self]; omega

theorem vc_readView (ord) : (w.view t).vc t + 1 ≤ (w.readView t l i ord).vc t := by
  cases ord <;> simp [WSt.readView, View.tick_vc_self, View.bump, View.join] <;> omega

theorem vc_rmwView : (w.view t).vc t + 1 ≤ (w.rmwView t l).vc t := by
  simp [WSt.rmwView, View.tick_vc_self, View.bump, View.join]; omega

theorem vc_storeView : (w.view t).vc t + 1 ≤ (w.storeView t l).vc t := by
  simp [WSt.storeView, View.tick_vc_self, View.bump]

@[simp] theorem touched_nil : w.touched t [] w.s = w.acc := by
  funext n; simp only [WSt.touched]; split
  · rename_i h; simp at h; omega
  · rfl

end

end Verif.Queue
