import Verif.Stack.WeakInv
import Verif.Stack.Reach

/-!
# Stack under release/acquire memory: simulation by the canonical weak stack (proof)
-/

namespace Verif.Stack
open Lin

variable {α : Type} {cfg : Cfg}

/-! ### Memory -/

/-- The views in a state. -/
inductive WSt.Has (w : WSt α) : View Loc → Prop where
  | thread (t) : Has w (w.view t)
  | msg (l i) : i ≤ w.top l → Has w (w.msg l i).view
  | post {v} : v ∈ w.posts → Has w v

/-- Invariant of the memory: which accesses are known to whom. -/
structure MInv (cfg : Cfg) (w : WSt α) (pc : Nat → PC α) (g : G) : Prop where
  last : ∀ l, (w.msg l (w.top l)).val = w.s.word l
  snap : ∀ l, ∀ i ≤ w.top l, SnapAt cfg w.s g.F g.S (w.msg l i).val l
  seen : ∀ v, w.Has v → ∀ l, v.seen l ≤ w.top l
  thr : ∀ n t, g.own n = .thr t → (w.view t).knows (w.acc n) = true
  loc : ∀ n l, g.own n = ofLoc l → (w.msg l (w.top l)).view.knows (w.acc n) = true
  raw : ∀ n, g.own n = .raw → w.acc n = []
  cur : ∀ l, ∀ i ≤ w.top l, ∀ n, (w.msg l i).val.v.ptr = some n → (w.msg l i).val.ver = (w.s.word l).ver →
    (w.msg l i).view.knows (w.acc n) = true
  spec : ∀ t l o n, specSnap (pc t) = some (l, o) → o.v.ptr = some n → o.ver = (w.s.word l).ver →
    ((w.view t).join (w.dep t)).knows (w.acc n) = true

theorem ofLoc_ne_thr (l : Loc) (t : Nat) : ofLoc l ≠ .thr t := by cases l <;> simp [ofLoc]
theorem ofLoc_ne_raw (l : Loc) : ofLoc l ≠ .raw := by cases l <;> simp [ofLoc]
theorem ofLoc_ne_lost (l : Loc) : ofLoc l ≠ .lost := by cases l <;> simp [ofLoc]

theorem Guar.loc {lk t s g s' g'} (hg : Guar (α := α) lk t s g s' g') {l : Loc} (hw : (s'.word l) = (s.word l))
    (m : Nat) : g'.own m = ofLoc l ↔ g.own m = ofLoc l := by
  cases l
  · exact hg.tp (congrArg Snap.v hw) m
  · exact hg.fp (congrArg Snap.v hw) m

theorem Guar.thr_ne {lk t s g s' g' σ σ'} (hg : Guar (α := α) lk t s g s' g') (hi : SI cfg s g σ)
    (hi' : SI cfg s' g' σ') {t' : Nat} (ht : t' ≠ t) (m : Nat) : g'.own m = .thr t' ↔ g.own m = .thr t' := by
  rw [hi.heap.hmem, hi'.heap.hmem, hg.others t' ht]

/-- A step without atomic access. -/
theorem MInv.plain {w : WSt α} {pc : Nat → PC α} {g g' : G} {σ σ' st lk t s'} (hi : MInv cfg w pc g)
    (hsi : SI cfg w.s g σ) (hsi' : SI cfg s' g' σ') (hg : Guar lk t w.s g s' g')
    (hloc : Local cfg w.s g.F g.S (g.held t) st (pc t)) (hother : ∀ t', ∃ st, Local cfg w.s g.F g.S (g.held t') st (pc t'))
    (hw : ∀ l, s'.word l = w.s.word l) {p'} (hp : specSnap p' = none) {ns : List Nat}
    (hns : ∀ n ∈ ns, n ∈ touch (pc t)) :
    MInv cfg (w.plain t ns s') (upd pc t p') g' := by
  have hty : ∀ n, n ∈ ns → g.own n = .thr t := fun n hn =>
    (hsi.heap.hmem t n).2 (hloc.touch_held (hns n hn))
  have hacc : ∀ n, g.own n ≠ .thr t → g.own n ≠ .raw → (w.plain t ns s').acc n = w.acc n := by
    intro n h1 h2
    simp only [WSt.plain]
    rw [if_neg]
    rintro (h | h)
    · exact h1 (hty n h)
    · exact h2 ((hsi.heap.raw n).2 h.1)
  have hview : ∀ t', View.Le (w.view t') ((w.plain t ns s').view t') := by
    intro t'
    simp only [WSt.plain]
    by_cases h : t' = t
    · subst h; rw [upd_self]; exact View.le_tick ..
    · rw [upd_ne _ _ _ h]; exact .refl _
  refine ⟨?_, ?_, ?_, ?_, ?_, ?_, ?_, ?_⟩
  · intro l
    simp only [WSt.plain]
    rw [hi.last, hw]
  · intro l i hle
    exact (hi.snap l i hle).mono (hg.rely hsi hsi' (t' := t + 1) (by omega))
  · intro v hv l
    cases hv with
    | thread t' =>
      have h1 := hi.seen _ (.thread t') l
      by_cases h : t' = t
      · subst h; simp only [WSt.plain, upd_self]; exact h1
      · simp only [WSt.plain, upd_ne _ _ _ h]; exact h1
    | msg l' i h => exact hi.seen _ (.msg l' i h) l
    | post h => exact hi.seen _ (.post h) l
  · intro n t' hn
    by_cases h : t' = t
    · subst h
      have hnew : (w.view t').knows (w.acc n) = true := by
        by_cases h1 : g.own n = .thr t'
        · exact hi.thr n t' h1
        · rw [hi.raw]
          · exact View.knows_nil _
          · have hk := hg.keep n
            have h2 := fun t'' (ht : t'' ≠ t') => hg.thr_ne hsi hsi' ht n
            have h3 := fun l => hg.loc (hw l) n
            cases ho : g.own n with
            | raw => rfl
            | free => have := (h3 .pool).2 ho; rw [hn] at this; cases this
            | str => have := (h3 .tos).2 ho; rw [hn] at this; cases this
            | lost => have := hk ho; rw [hn] at this; cases this
            | thr t'' =>
              have := (h2 t'' (by rintro rfl; exact h1 ho)).2 ho
              rw [hn] at this; cases this; exact absurd ho h1
      have h4 := View.knows.mono hnew (hview t')
      simp only [WSt.plain] at h4 ⊢
      split
      · refine View.knows_iff.2 fun x hx => ?_
        rcases List.mem_cons.1 hx with rfl | hx
        · rw [upd_self]; simp [View.tick]
        · exact View.knows_iff.1 h4 x hx
      · exact h4
    · have h1 := (hg.thr_ne hsi hsi' h n).1 hn
      rw [hacc n (by rw [h1]; simpa using h) (by simp [h1])]
      exact View.knows.mono (hi.thr n t' h1) (hview t')
  · intro n l hn
    have h1 := (hg.loc (hw l) n).1 hn
    rw [hacc n (by rw [h1]; exact ofLoc_ne_thr _ _) (by rw [h1]; exact ofLoc_ne_raw _)]
    exact hi.loc n l h1
  · intro n hn
    have h1 := (hsi'.heap.raw n).1 hn
    have h2 := hg.nalloc
    have h3 : g.own n = .raw := (hsi.heap.raw n).2 (by omega)
    simp only [WSt.plain]
    rw [if_neg]
    · exact hi.raw n h3
    · rintro (h | h)
      · rw [hty n h] at h3; cases h3
      · omega
  · intro l i hle n hn hv
    have h1 : (w.msg l i).val.ver = (w.s.word l).ver := by rw [← hw]; exact hv
    have h2 := (hi.snap l i hle).own hsi hn h1
    rw [hacc n (by rw [h2]; exact ofLoc_ne_thr _ _) (by rw [h2]; exact ofLoc_ne_raw _)]
    exact hi.cur l i hle n hn h1
  · intro t' l o n hsp hn hv
    by_cases h : t' = t
    · subst h; rw [upd_self] at hsp; rw [hp] at hsp; cases hsp
    · rw [upd_ne _ _ _ h] at hsp
      have h1 : o.ver = (w.s.word l).ver := by rw [← hw]; exact hv
      obtain ⟨_, hl'⟩ := hother t'
      have h2 := (hl'.snap hsp).own hsi hn h1
      rw [hacc n (by rw [h2]; exact ofLoc_ne_thr _ _) (by rw [h2]; exact ofLoc_ne_raw _)]
      simp only [WSt.plain, upd_ne _ _ _ h]
      exact hi.spec t' l o n hsp hn h1

/-- A step that leaves the memory alone. -/
theorem MInv.skip {w : WSt α} {pc : Nat → PC α} {g g' : G} {σ σ' lk t} (hi : MInv cfg w pc g)
    (hsi : SI cfg w.s g σ) (hsi' : SI cfg w.s g' σ') (hg : Guar lk t w.s g w.s g') {p'} (hp : specSnap p' = none) :
    MInv cfg w (upd pc t p') g' := by
  have hraw : ∀ n, g'.own n = .raw ↔ g.own n = .raw := fun n => by rw [hsi'.heap.raw, hsi.heap.raw]
  refine ⟨hi.last, ?_, hi.seen, ?_, fun n l hn => hi.loc n l ((hg.loc rfl n).1 hn), fun n hn => hi.raw n ((hraw n).1 hn), hi.cur, ?_⟩
  · intro l i hle
    exact (hi.snap l i hle).mono (hg.rely hsi hsi' (t' := t + 1) (by omega))
  · intro n t' hn
    by_cases h : t' = t
    · subst h
      by_cases h1 : g.own n = .thr t'
      · exact hi.thr n t' h1
      · have hk := hg.keep n
        have h2 := fun t'' (ht : t'' ≠ t') => hg.thr_ne hsi hsi' ht n
        cases ho : g.own n with
        | raw => have := (hraw n).2 ho; rw [hn] at this; cases this
        | free => have := (hg.loc (l := .pool) rfl n).2 ho; rw [hn] at this; cases this
        | str => have := (hg.loc (l := .tos) rfl n).2 ho; rw [hn] at this; cases this
        | lost => have := hk ho; rw [hn] at this; cases this
        | thr t'' =>
          have := (h2 t'' (by rintro rfl; exact h1 ho)).2 ho
          rw [hn] at this; cases this; exact absurd ho h1
    · exact hi.thr n t' ((hg.thr_ne hsi hsi' h n).1 hn)
  · intro t' l o n hsp hn hv
    by_cases h : t' = t
    · subst h; rw [upd_self] at hsp; rw [hp] at hsp; cases hsp
    · rw [upd_ne _ _ _ h] at hsp
      exact hi.spec t' l o n hsp hn hv

theorem rmwView_le (w : WSt α) (t : Nat) (l : Loc) : View.Le (w.view t) (w.rmwView t l) ∧
    View.Le (w.msg l (w.top l)).view (w.rmwView t l) := by
  have h : View.Le ((w.view t).join (w.msg l (w.top l)).view) (w.rmwView t l) :=
    (View.le_bump _ _ _).trans (View.le_tick _ _)
  exact ⟨(View.le_join_left _ _).trans h, (View.le_join_right _ _).trans h⟩

/-- A successful compare-exchange. -/
theorem MInv.rmw {w : WSt α} {pc : Nat → PC α} {g g' : G} {σ σ' lk t s' l} (hi : MInv cfg w pc g)
    (hsi : SI cfg w.s g σ) (hsi' : SI cfg s' g' σ') (hg : Guar lk t w.s g s' g')
    (hother : ∀ t', ∃ st, Local cfg w.s g.F g.S (g.held t') st (pc t'))
    (hw : ∀ l', l' ≠ l → s'.word l' = w.s.word l') {p'} (hp : specSnap p' = none) :
    MInv cfg (w.rmw t l s') (upd pc t p') g' := by
  obtain ⟨hle1, hle2⟩ := rmwView_le w t l
  have hrely := hg.rely hsi hsi' (t' := t + 1) (by omega)
  have hview : ∀ t', View.Le (w.view t') ((w.rmw t l s').view t') := by
    intro t'
    simp only [WSt.rmw]
    by_cases h : t' = t
    · subst h; rw [upd_self]; exact hle1
    · rw [upd_ne _ _ _ h]; exact .refl _
  have hmsg : ∀ l' i, ((w.rmw t l s').msg l' i = w.msg l' i ∧ (l' = l → i ≠ w.top l + 1)) ∨
      (l' = l ∧ i = w.top l + 1 ∧ (w.rmw t l s').msg l' i = ⟨s'.word l, w.rmwView t l⟩) := by
    intro l' i
    simp only [WSt.rmw]
    by_cases h : l' = l
    · subst h
      by_cases h' : i = w.top l' + 1
      · subst h'; right; simp
      · left; simp [h']
    · left; simp [h]
  have htop : ∀ l', l' ≠ l → (w.rmw t l s').top l' = w.top l' := by
    intro l' h; simp [WSt.rmw, upd_ne _ _ _ h]
  have htopl : (w.rmw t l s').top l = w.top l + 1 := by simp [WSt.rmw]
  have hold : ∀ l' i, i ≤ (w.rmw t l s').top l' → (l' = l → i ≠ w.top l + 1) → i ≤ w.top l' := by
    intro l' i h1 h2
    by_cases h : l' = l
    · subst h; rw [htopl] at h1; have := h2 rfl; omega
    · rw [htop _ h] at h1; exact h1
  have hseen : ∀ l', (w.rmwView t l).seen l' ≤ (w.rmw t l s').top l' := by
    intro l'
    have h1 := hi.seen _ (.thread t) l'
    have h2 := hi.seen _ (.msg l (w.top l) (Nat.le_refl _)) l'
    have h3 := hi.seen _ (.thread t) l
    have h4 := hi.seen _ (.msg l (w.top l) (Nat.le_refl _)) l
    by_cases h : l' = l
    · subst h; simp only [htopl, WSt.rmwView, View.tick, View.bump, View.join, upd_self]; omega
    · simp only [htop _ h, WSt.rmwView, View.tick, View.bump, View.join, upd_ne _ _ _ h]; omega
  have hverl : ∀ l', (w.s.word l').ver ≤ (s'.word l').ver := by
    intro l'; cases l'
    · exact hg.tver
    · exact hg.pver
  -- ownership
  have hthr : ∀ n, g'.own n = .thr t → (w.rmwView t l).knows (w.acc n) = true := by
    intro n hn
    by_cases h1 : g.own n = .thr t
    · exact View.knows.mono (hi.thr n t h1) hle1
    · cases ho : g.own n with
      | raw => rw [hi.raw n ho]; exact View.knows_nil _
      | lost => have := hg.keep n ho; rw [hn] at this; cases this
      | thr t'' =>
        have := (hg.thr_ne hsi hsi' (by rintro rfl; exact h1 ho) n).2 ho
        rw [hn] at this; cases this; exact absurd ho h1
      | str =>
        by_cases h : Loc.tos = l
        · subst h; exact View.knows.mono (hi.loc n .tos ho) hle2
        · have := (hg.loc (hw .tos h) n).2 ho; rw [hn] at this; cases this
      | free =>
        by_cases h : Loc.pool = l
        · subst h; exact View.knows.mono (hi.loc n .pool ho) hle2
        · have := (hg.loc (hw .pool h) n).2 ho; rw [hn] at this; cases this
  have hlocl : ∀ n, g'.own n = ofLoc l → (w.rmwView t l).knows (w.acc n) = true := by
    intro n hn
    rcases hg.tr n with h | h | h
    · exact View.knows.mono (hi.loc n l (by rw [← h]; exact hn)) hle2
    · exact View.knows.mono (hi.thr n t h) hle1
    · rw [h] at hn; exact absurd hn.symm (ofLoc_ne_thr _ _)
  refine ⟨?_, ?_, ?_, ?_, ?_, ?_, ?_, ?_⟩
  · intro l'
    by_cases h : l' = l
    · subst h; simp [WSt.rmw]
    · have := hi.last l'
      simp only [WSt.rmw, upd_ne _ _ _ h]
      rw [this, hw _ h]
  · intro l' i hle
    rcases hmsg l' i with ⟨h1, h2⟩ | ⟨h1, h2, h3⟩
    · rw [h1]; exact (hi.snap l' i (hold l' i hle h2)).mono hrely
    · rw [h3]; subst h1; exact hsi'.snap l'
  · intro v hv l'
    have hmono : ∀ l', w.top l' ≤ (w.rmw t l s').top l' := by
      intro l'
      by_cases h : l' = l
      · subst h; rw [htopl]; omega
      · rw [htop _ h]; omega
    cases hv with
    | thread t' =>
      by_cases h : t' = t
      · subst h; simp only [WSt.rmw, upd_self]; exact hseen l'
      · simp only [WSt.rmw, upd_ne _ _ _ h]; exact Nat.le_trans (hi.seen _ (.thread t') l') (hmono l')
    | msg l'' i h =>
      rcases hmsg l'' i with ⟨h1, h2⟩ | ⟨h1, h2, h3⟩
      · rw [h1]; exact Nat.le_trans (hi.seen _ (.msg l'' i (hold _ _ h h2)) l') (hmono l')
      · rw [h3]; exact hseen l'
    | post h => exact Nat.le_trans (hi.seen _ (.post h) l') (hmono l')
  · intro n t' hn
    by_cases h : t' = t
    · subst h; simp only [WSt.rmw, upd_self]; exact hthr n hn
    · exact View.knows.mono (hi.thr n t' ((hg.thr_ne hsi hsi' h n).1 hn)) (hview t')
  · intro n l' hn
    by_cases h : l' = l
    · subst h; simp only [WSt.rmw, upd_self]; exact hlocl n hn
    · have h1 := hi.loc n l' ((hg.loc (hw l' h) n).1 hn)
      simp only [WSt.rmw, upd_ne _ _ _ h]
      exact h1
  · intro n hn
    have h1 := (hsi'.heap.raw n).1 hn
    have h2 := hg.nalloc
    exact hi.raw n ((hsi.heap.raw n).2 (by omega))
  · intro l' i hle n hn hv
    rcases hmsg l' i with ⟨h1, h2⟩ | ⟨h1, h2, h3⟩
    · rw [h1] at hn hv ⊢
      have h4 := hold l' i hle h2
      refine hi.cur l' i h4 n hn ?_
      have h5 := (hi.snap l' i h4).ver_le
      have h6 := hverl l'
      have h7 : (w.msg l' i).val.ver = (s'.word l').ver := hv
      omega
    · rw [h3] at hn ⊢
      subst h1
      exact hlocl n ((hsi'.snap l').own hsi' hn rfl)
  · intro t' l' o n hsp hn hv
    by_cases h : t' = t
    · subst h; rw [upd_self, hp] at hsp; cases hsp
    · rw [upd_ne _ _ _ h] at hsp
      obtain ⟨_, hl'⟩ := hother t'
      have h5 := (hl'.snap hsp).ver_le
      have h6 := hverl l'
      have h7 : o.ver = (s'.word l').ver := hv
      simp only [WSt.rmw, upd_ne _ _ _ h]
      exact hi.spec t' l' o n hsp hn (by omega)

/-- A step that changes only the view of `t` and perhaps the posted views. -/
theorem MInv.views {w w' : WSt α} {pc : Nat → PC α} {g : G} {t p'} (hi : MInv cfg w pc g)
    (hs : w'.s = w.s) (hm : w'.msg = w.msg) (ht : w'.top = w.top) (ha : w'.acc = w.acc)
    (hd : ∀ t', t' ≠ t → w'.dep t' = w.dep t') (hv : ∀ t', t' ≠ t → w'.view t' = w.view t')
    (hle : View.Le (w.view t) (w'.view t)) (hseen : ∀ l, (w'.view t).seen l ≤ w.top l)
    (hpost : ∀ v ∈ w'.posts, v ∈ w.posts ∨ v = w'.view t)
    (hp : ∀ l o n, specSnap p' = some (l, o) → o.v.ptr = some n → o.ver = (w.s.word l).ver →
      ((w'.view t).join (w'.dep t)).knows (w.acc n) = true) :
    MInv cfg w' (upd pc t p') g := by
  have hview : ∀ t', View.Le (w.view t') (w'.view t') := by
    intro t'
    by_cases h : t' = t
    · subst h; exact hle
    · rw [hv t' h]; exact .refl _
  refine ⟨?_, ?_, ?_, ?_, ?_, ?_, ?_, ?_⟩
  · intro l; rw [hm, ht, hs]; exact hi.last l
  · intro l i; rw [hm, ht, hs]; exact hi.snap l i
  · intro v hv' l
    rw [ht]
    cases hv' with
    | thread t' =>
      by_cases h : t' = t
      · subst h; exact hseen l
      · rw [hv t' h]; exact hi.seen _ (.thread t') l
    | msg l' i h => rw [ht] at h; rw [hm]; exact hi.seen _ (.msg l' i h) l
    | post h =>
      rcases hpost v h with h | h
      · exact hi.seen _ (.post h) l
      · rw [h]; exact hseen l
  · intro n t' hn; rw [ha]; exact View.knows.mono (hi.thr n t' hn) (hview t')
  · intro n l hn; rw [ha, hm, ht]; exact hi.loc n l hn
  · intro n hn; rw [ha]; exact hi.raw n hn
  · intro l i; rw [hm, ht, hs, ha]; exact hi.cur l i
  · intro t' l o n hsp hn hver
    rw [hs] at hver
    by_cases h : t' = t
    · subst h; rw [upd_self] at hsp; rw [ha]; exact hp l o n hsp hn hver
    · rw [upd_ne _ _ _ h] at hsp
      rw [hv t' h, hd t' h, ha]
      exact hi.spec t' l o n hsp hn hver

theorem MInv.initial (n : Nat) : MInv cfg (WConf.initial n : WConf α).s (WConf.initial n : WConf α).pc
    ⟨initOwn n, downFrom 0 n, [], fun _ => []⟩ := by
  have hg := (GInv.initial (α := α) cfg n).si
  refine ⟨fun _ => rfl, fun l i _ => hg.snap l, ?_, fun _ _ _ => View.knows_nil _, fun _ _ _ => View.knows_nil _,
    fun _ _ => rfl, fun _ _ _ _ _ _ => View.knows_nil _, ?_⟩
  · intro v hv l
    cases hv with
    | thread | msg => simp [WConf.initial, View.bot]
    | post h => simp [WConf.initial] at h
  · intro t l o n h; simp [WConf.initial, specSnap] at h

/-! ### Simulation -/

/-- Statuses of the two canonical objects; `m` is the newest value of `tos` that the thread has seen. -/
def SRel (m : Nat) : Status (Op α) (Ret α) → WStatus (Op α) (Ret α) → Prop
  | .idle, .idle => True
  | .pend o _, .pend o' b => o' = o ∧ b ≤ m
  | .done o r, .done o' r' k => o' = o ∧ r' = r ∧ k ≤ m
  | _, _ => False

theorem SRel.mono {m m' : Nat} (hm : m ≤ m') {a : Status (Op α) (Ret α)} {b} (h : SRel m a b) : SRel m' a b := by
  cases a <;> cases b <;> simp only [SRel] at h ⊢ <;> grind

theorem SRel.pend {m : Nat} {o : Op α} {P b} (h : SRel (α := α) m (.pend o P) b) : ∃ k, b = .pend o k ∧ k ≤ m := by
  cases b <;> simp only [SRel] at h
  obtain ⟨rfl, h⟩ := h; exact ⟨_, rfl, h⟩

theorem SRel.done {m : Nat} {o : Op α} {r b} (h : SRel (α := α) m (.done o r) b) :
    ∃ k, b = .done o r k ∧ k ≤ m := by
  cases b <;> simp only [SRel] at h
  obtain ⟨rfl, rfl, h⟩ := h; exact ⟨_, rfl, h⟩

theorem SRel.idle {m : Nat} {b} (h : SRel (α := α) m .idle b) : b = .idle := by
  cases b <;> simp only [SRel] at h; rfl

/-- The invariant. -/
structure WInv (cfg : Cfg) (C : WConf α) (g : G) (c : CState (Stack.spec α cfg.fixed))
    (wc : WCState (Stack.spec α cfg.fixed)) : Prop where
  gi : GInv cfg ⟨C.s.s, C.pc⟩ g c
  mem : MInv cfg C.s C.pc g
  top : wc.top = C.s.top .tos
  cst : wc.st wc.top = c.st
  null : ∀ i ≤ wc.top, (C.s.msg .tos i).val.v.ptr = none ↔ wc.st i = []
  rel : ∀ t, SRel ((C.s.view t).seen .tos) (c.status t) (wc.status t)

/-- An event without its view. -/
def bareEv : Event (Op α × View Loc) (Ret α × View Loc) → Event (Op α) (Ret α)
  | .inv t o => .inv t o.1
  | .res t r => .res t r.1

/-- An event stamped with the newest value of `tos` seen by its thread. -/
def evTr (e : Event (Op α × View Loc) (Ret α × View Loc)) : Event (Op α) (Ret α) × Nat :=
  (bareEv e, (evView e).seen .tos)

/-- Effect of a silent move on the status of the moving thread. -/
theorem CMove.silent {S : Spec (Op α) (Ret α)} {c c' : CState S} {t : Nat} (h : CMove S c none c')
    (ho : ∀ t', t' ≠ t → c'.status t' = c.status t') :
    (c'.st = c.st ∧ ∀ m b, SRel m (c.status t) b → SRel m (c'.status t) b) ∨
    ∃ o P r, c.status t = .pend o P ∧ c'.status t = .done o r ∧ S.step c.st o r c'.st := by
  cases h with
  | stay => exact .inl ⟨rfl, fun _ _ h => h⟩
  | @lin t'' o P r σ' h1 h2 =>
    by_cases h : t'' = t
    · subst h; exact .inr ⟨o, P, r, h1, by simp, h2⟩
    · have := ho t'' h
      simp [h1] at this
  | @obs t'' o P r h1 h2 =>
    left
    refine ⟨rfl, fun m b hb => ?_⟩
    by_cases h : t'' = t
    · subst h; rw [h1] at hb; simp only [upd_self]
      obtain ⟨k, rfl, hk⟩ := hb.pend; exact ⟨rfl, hk⟩
    · simp only [upd_ne _ _ _ (Ne.symm h)]; exact hb

/-- The new configuration of a step that leaves the list of values of `tos` alone. -/
theorem WInv.same {C : WConf α} {g : G} {c : CState (Stack.spec α cfg.fixed)}
    {wc : WCState (Stack.spec α cfg.fixed)} (hi : WInv cfg C g c wc) {w' : WSt α} {t p' g' c'}
    (hgi : GInv cfg ⟨w'.s, upd C.pc t p'⟩ g' c') (hm : MInv cfg w' (upd C.pc t p') g')
    (hmsg : w'.msg .tos = C.s.msg .tos) (htop : w'.top .tos = C.s.top .tos) (hst : c'.st = c.st)
    (hle : ∀ t', (C.s.view t').seen .tos ≤ (w'.view t').seen .tos)
    (ho : ∀ t', t' ≠ t → c'.status t' = c.status t') {b}
    (hb : SRel ((w'.view t).seen .tos) (c'.status t) b) :
    WInv cfg ⟨w', upd C.pc t p'⟩ g' c' { wc with status := upd wc.status t b } := by
  refine ⟨hgi, hm, by simp [hi.top, htop], by simp [hi.cst, hst], by simpa [hmsg] using hi.null, fun t' => ?_⟩
  by_cases h : t' = t
  · subst h; simpa using hb
  · simp only [upd_ne _ _ _ h, ho t' h]
    exact (hi.rel t').mono (hle t')

theorem upd_same {β : Type} (f : Nat → β) (t : Nat) : upd f t (f t) = f := by
  funext x; simp only [upd_apply]; split <;> simp_all

/-- Statuses around compare-exchanges. -/
theorem tstep_rmw_status {t : Nat} {s s' : St α} {p p' : PC α} {e l o F S hd st F' S' hd' st'}
    (hs : tstep cfg t s p .go = some (s', p', e)) (hc : casOf p = some (l, o)) (hw : (s.word l).v = o.v)
    (hl : Local cfg s F S hd st p) (hl' : Local cfg s' F' S' hd' st' p') :
    (l = .tos → (∃ o, isPend st o) ∧ ∃ r, isDone st' r) ∧
    (l = .pool → ((∃ o, isPend st o) ∧ (∃ o, isPend st' o)) ∨ ((∃ r, isDone st r))) := by
  cases p with
  | alloc b k a =>
    cases a <;> simp [casOf] at hc
    obtain ⟨rfl, rfl⟩ := hc
    simp only [St.word, Heap.poolSnap] at hw
    simp only [tstep, aStep, hw, if_true] at hs
    rename_i o _
    cases hp : o.v.ptr <;> simp [hp] at hs
    obtain ⟨rfl, rfl, rfl⟩ := hs
    refine ⟨nofun, fun _ => .inl ?_⟩
    cases k with
    | one v => exact ⟨⟨_, hl.2.1⟩, _, hl'.2.1⟩
    | range acc te v rest => obtain ⟨_, _, _, h, _⟩ := hl'; exact ⟨⟨_, hl.2.1⟩, _, h⟩
  | free k n d =>
    cases d <;> simp [casOf] at hc
    obtain ⟨rfl, rfl⟩ := hc
    simp only [St.word, Heap.poolSnap] at hw
    simp [tstep, dStep, hw] at hs
    obtain ⟨rfl, rfl, rfl⟩ := hs
    refine ⟨nofun, fun _ => ?_⟩
    obtain ⟨_, _, _, _, h0⟩ := hl
    cases k with
    | pop v => exact .inr ⟨_, h0.2⟩
    | cons thr acc nx => obtain ⟨_, ⟨_, _, h⟩, _⟩ := h0; exact .inr ⟨_, h⟩
    | rsv => obtain ⟨_, _, h⟩ := h0; obtain ⟨_, _, h'⟩ := hl'; exact .inl ⟨⟨_, h⟩, _, h'⟩
    | undo => exact .inr ⟨_, h0.2.2⟩
  | lcas top e o r =>
    simp [casOf] at hc
    obtain ⟨rfl, rfl⟩ := hc
    simp only [St.word, St.tosSnap] at hw
    simp [tstep, hw] at hs
    obtain ⟨rfl, rfl, rfl⟩ := hs
    obtain ⟨_, _, _, _, _, h, _⟩ := hl
    exact ⟨fun _ => ⟨⟨_, h⟩, _, hl'.2⟩, nofun⟩
  | pcas thr o nx =>
    simp [casOf] at hc
    obtain ⟨rfl, rfl⟩ := hc
    simp only [St.word, St.tosSnap] at hw
    simp only [tstep, hw, if_true] at hs
    cases hp : o.v.ptr <;> simp [hp] at hs
    obtain ⟨rfl, rfl, rfl⟩ := hs
    obtain ⟨_, _, _, h⟩ := hl'
    exact ⟨fun _ => ⟨⟨_, hl.2.1⟩, _, h⟩, nofun⟩
  | ccas rev thr o =>
    simp [casOf] at hc
    obtain ⟨rfl, rfl⟩ := hc
    simp only [St.word, St.tosSnap] at hw
    simp only [tstep, hw, if_true] at hs
    cases hp : o.v.ptr <;> simp [hp] at hs
    obtain ⟨rfl, rfl, rfl⟩ := hs
    refine ⟨fun _ => ⟨⟨_, hl.2.1⟩, ?_⟩, nofun⟩
    cases rev with
    | true => obtain ⟨_, _, _, _, _, _, _, h⟩ := hl'; exact ⟨_, h⟩
    | false => obtain ⟨_, ⟨_, _, h⟩, _⟩ := hl'; exact ⟨_, h⟩
  | _ => simp [casOf] at hc

theorem quiet_ok {p p' : PC α} (h : quiet cfg p = some p') (s : St α) : okFresh cfg s p .go := by
  unfold quiet at h
  split at h <;> first | exact ⟨trivial, nofun⟩ | simp at h

/-- One step. -/
theorem WInv.step {C : WConf α} {g : G} {c : CState (Stack.spec α cfg.fixed)}
    {wc : WCState (Stack.spec α cfg.fixed)} (hi : WInv cfg C g c wc) {t ch w' p' e}
    (hs : wstep cfg t C.s (C.pc t) ch = some (w', p', e)) (hok : okWFresh cfg C.s (C.pc t) ch) :
    ∃ g' c' wc', WInv cfg ⟨w', upd C.pc t p'⟩ g' c' wc' ∧ WMove (Stack.spec α cfg.fixed) wc (e.map evTr) wc' := by
  have hloc := hi.gi.loc t
  have hother : ∀ t', ∃ st, Local cfg C.s.s g.F g.S (g.held t') st (C.pc t') := fun t' => ⟨_, hi.gi.loc t'⟩
  have hrel := hi.rel t
  have hseen := hi.mem.seen _ (.thread t) .tos
  cases wtrans_of_wstep hs with
  | racing hc hl hn hk =>
    exact absurd (hi.mem.thr _ t ((hi.gi.si.heap.hmem t _).2 (hloc.touch_held hn))) hk
  | @rmw l o s' p' e' hc hw hst =>
    obtain ⟨hw', hsp, he⟩ := tstep_rmw hst hc hw
    subst he
    obtain ⟨g', c', hgi, hcm, hg, ho⟩ := hi.gi.step (t := t) hst hok.1 hok.2
    have hm := hi.mem.rmw (t := t) (l := l) (p' := p') hi.gi.si hgi.si hg hother hw' hsp
    have hl' := hgi.loc t
    simp only [upd_self] at hl'
    have hstat := tstep_rmw_status hst hc hw hloc hl'
    have hview : ∀ t', (C.s.view t').seen .tos ≤ ((C.s.rmw t l s').view t').seen .tos := by
      intro t'
      simp only [WSt.rmw]
      by_cases h : t' = t
      · subst h; rw [upd_self]; exact (rmwView_le C.s t' l).1.1 _
      · rw [upd_ne _ _ _ h]; exact Nat.le_refl _
    rcases CMove.silent hcm ho with ⟨h1, h2⟩ | ⟨o', P, r, h1, h2, h3⟩
    · cases l with
      | tos =>
        obtain ⟨⟨o', P, hp⟩, r, o'', hr⟩ := hstat.1 rfl
        have hp' : c.status t = .pend o' P := hp
        rw [hp'] at hrel
        obtain ⟨k, hk, _⟩ := hrel.pend
        have := h2 _ _ (hi.rel t)
        rw [hr, hk] at this
        simp [SRel] at this
      | pool =>
        refine ⟨g', c', _, hi.same hgi hm rfl rfl h1 hview ho (SRel.mono (hview t) (h2 _ _ hrel)), ?_⟩
        rw [upd_same]
        exact .stay _
    · cases l with
      | pool =>
        exfalso
        rcases hstat.2 rfl with ⟨_, o'', P', hd⟩ | ⟨r', o'', hd⟩
        · rw [h2] at hd; cases hd
        · have hd' : c.status t = .done o'' r' := hd
          rw [h1] at hd'; cases hd'
      | tos =>
        rw [h1] at hrel
        obtain ⟨k, hk, hkm⟩ := hrel.pend
        refine ⟨g', c', _, ?_, .lin (σ' := c'.st) hk (by rw [hi.cst]; exact h3)⟩
        have htop := hi.top
        refine ⟨hgi, hm, by simp [WSt.rmw, htop], by simp, ?_, ?_⟩
        · intro i hle
          by_cases h : i = wc.top + 1
          · subst h
            have := hgi.si.empty_iff
            have h4 : ((C.s.rmw t .tos s').msg .tos (wc.top + 1)).val = s'.word .tos := by simp [WSt.rmw, htop]
            simp only [h4, upd_self]
            exact this
          · have h4 := hi.null i (by simp only at hle; omega)
            have h5 : i ≠ C.s.top .tos + 1 := by omega
            simpa [WSt.rmw, upd_ne _ _ _ h, upd_ne _ _ _ h5] using h4
        · intro t'
          by_cases h : t' = t
          · subst h
            simp only [upd_self, h2, WSt.rmw]
            refine ⟨rfl, rfl, ?_⟩
            simp [WSt.rmwView, View.bump, View.tick, htop]
            omega
          · simp only [upd_ne _ _ _ h, ho t' h]
            exact (hi.rel t').mono (hview t')
  | @plain ch s' p' e' hc hl hk hst =>
    obtain ⟨hw, hsp⟩ := tstep_plain hst hc hl
    obtain ⟨g', c', hgi, hcm, hg, ho⟩ := hi.gi.step (t := t) hst hok.1 hok.2
    have hm := hi.mem.plain (t := t) (p' := p') (ns := touch (C.pc t)) hi.gi.si hgi.si hg hloc hother hw hsp
      fun _ h => h
    have hl' := hgi.loc t
    simp only [upd_self] at hl'
    have hview : ∀ t', ((C.s.plain t (touch (C.pc t)) s').view t').seen .tos = (C.s.view t').seen .tos := by
      intro t'
      simp only [WSt.plain]
      by_cases h : t' = t
      · subst h; rw [upd_self]; rfl
      · rw [upd_ne _ _ _ h]
    have hview' := fun t' => Nat.le_of_eq (hview t').symm
    cases e' with
    | none =>
      rcases CMove.silent hcm ho with ⟨h1, h2⟩ | ⟨o', P, r, h1, h2, h3⟩
      · refine ⟨g', c', _, hi.same hgi hm rfl rfl h1 hview' ho (SRel.mono (hview' t) (h2 _ _ hrel)), ?_⟩
        rw [upd_same]
        exact .stay _
      · rw [h2] at hl'
        obtain ⟨h4, h5⟩ := plain_effect hst hc hl hloc hl' ⟨_, h1⟩ h3
        rw [h1] at hrel
        obtain ⟨k, hk, hkm⟩ := hrel.pend
        refine ⟨g', c', _, hi.same hgi hm rfl rfl h4 hview' ho (b := .done o' r ((C.s.view t).seen .tos)) ?_,
          .obs hk hkm (by rw [hi.top]; exact hseen) (h5 _)⟩
        rw [h2]; exact ⟨rfl, rfl, hview' t⟩
    | some e' =>
      rcases lawful cfg _ _ _ _ _ _ _ hst with ⟨h1, o', rfl⟩ | ⟨r, h1, h2, rfl⟩
      · cases hcm with
        | inv h3 =>
          rw [h3] at hrel
          refine ⟨g', _, _, hi.same (c' := ⟨c.st, upd c.status t (.pend o' fun _ => False)⟩) hgi hm rfl rfl rfl hview'
            ho (b := .pend o' ((C.s.view t).seen .tos)) ?_, ?_⟩
          · simp only [upd_self]; exact ⟨rfl, hview' t⟩
          · exact .inv (S := Stack.spec α cfg.fixed) hrel.idle (by rw [hi.top]; exact hseen)
      · cases hcm with
        | res h3 =>
          rw [h3] at hrel
          obtain ⟨k, hk, hkm⟩ := hrel.done
          refine ⟨g', _, _, hi.same (c' := ⟨c.st, upd c.status t .idle⟩) hgi hm rfl rfl rfl hview' ho (b := .idle) ?_, ?_⟩
          · simp only [upd_self]; trivial
          · exact .res (S := Stack.spec α cfg.fixed) hk hkm
        | resObs h3 =>
          exfalso
          have h4 : C.pc t = .ret r := h1
          rw [h4] at hloc
          obtain ⟨_, _, h5⟩ := hloc
          rw [h3] at h5; cases h5
  | @read i l ord ch s' p' e' hr hlo hhi hst =>
    obtain ⟨hres, hsp⟩ := tstep_read hloc hr (hi.mem.snap l i hhi) hst
    have hle : View.Le (C.s.view t) (C.s.readView t l i ord) := by
      cases ord
      · exact (View.le_bump _ _ _).trans (View.le_tick _ _)
      · exact (View.le_bump _ _ _).trans (View.le_tick _ _)
      · exact (View.le_join_left _ _).trans ((View.le_bump _ _ _).trans (View.le_tick _ _))
    have hsn : ∀ l', (C.s.readView t l i ord).seen l' ≤ C.s.top l' := by
      intro l'
      have h1 := hi.mem.seen _ (.thread t) l'
      have h2 := hi.mem.seen _ (.msg l i hhi) l'
      by_cases h : l' = l
      · subst h
        cases ord <;> simp only [WSt.readView, View.tick, View.bump, View.join, upd_self] <;> omega
      · cases ord <;> simp only [WSt.readView, View.tick, View.bump, View.join, upd_ne _ _ _ h] <;> omega
    have hbump : i ≤ (C.s.readView t l i ord).seen l := by
      cases ord <;> simp only [WSt.readView, View.tick, View.bump, View.join, upd_self] <;> omega
    have hm : MInv cfg (C.s.recv t l i ord) (upd C.pc t p') g := by
      refine hi.mem.views (t := t) rfl rfl rfl rfl (fun t' h => by simp [WSt.recv, upd_ne _ _ _ h])
        (fun t' h => by simp [WSt.recv, upd_ne _ _ _ h]) (by simpa [WSt.recv] using hle)
        (by simpa [WSt.recv] using hsn) (fun v h => .inl h) ?_
      intro l' o n h1 h2 h3
      obtain ⟨rfl, rfl, hord⟩ := hsp l' o h1
      have h4 := hi.mem.cur l' i hhi n h2 h3
      refine View.knows.mono h4 ((?_ : View.Le _ _).trans (View.le_join_right _ _))
      cases ord
      · exact absurd rfl hord
      · simp only [WSt.recv, upd_self]; exact .refl _
      · simp only [WSt.recv, upd_self]; exact .refl _
    have hview : ∀ t', (C.s.view t').seen .tos ≤ ((C.s.recv t l i ord).view t').seen .tos := by
      intro t'
      simp only [WSt.recv]
      by_cases h : t' = t
      · subst h; rw [upd_self]; exact hle.1 _
      · rw [upd_ne _ _ _ h]; exact Nat.le_refl _
    rcases hres with h | ⟨o', r, hp, rfl, hl', hσ⟩
    · have hgi : GInv cfg ⟨(C.s.recv t l i ord).s, upd C.pc t p'⟩ g c := by
        refine ⟨hi.gi.si, fun t' => ?_⟩
        by_cases ht : t' = t
        · subst ht; simpa [WSt.recv] using h
        · simp only [upd_ne _ _ _ ht]; exact hi.gi.loc t'
      refine ⟨g, c, _, hi.same hgi hm rfl rfl rfl hview (fun _ _ => rfl) (hrel.mono (hview t)), ?_⟩
      rw [upd_same]
      exact .stay _
    · obtain ⟨P, hP⟩ := hp
      rw [hP] at hrel
      obtain ⟨k, hk, hkm⟩ := hrel.pend
      have hgi : GInv cfg ⟨(C.s.recv t .tos i ord).s, upd C.pc t p'⟩ g ⟨c.st, upd c.status t (.done o' r)⟩ := by
        refine ⟨hi.gi.si, fun t' => ?_⟩
        by_cases ht : t' = t
        · subst ht; simpa [WSt.recv] using hl'
        · simp only [upd_ne _ _ _ ht]; exact hi.gi.loc t'
      have hit : i ≤ wc.top := by rw [hi.top]; exact hhi
      refine ⟨g, _, _, hi.same hgi hm rfl rfl rfl hview (fun t' ht => by simp [upd_ne _ _ _ ht])
        (b := .done o' r i) ?_, .obs hk (by omega) hit (hσ _ (hi.null i hit))⟩
      simp only [upd_self, WSt.recv]
      exact ⟨rfl, rfl, hbump⟩
  | @race n k x hsp hk =>
    have hcur : ∀ lc o, specSnap (C.pc t) = some (lc, o) → o.v.ptr = some n → o.ver ≠ (C.s.s.word lc).ver :=
      fun lc o h1 h2 h3 => hk (hi.mem.spec t lc o n h1 h2 h3)
    obtain ⟨h1, h2⟩ := race_local (x := x) hloc hsp hcur
    have hm := hi.mem.plain (t := t) (p' := k x) (ns := []) (lk := false) hi.gi.si hi.gi.si (.refl _ _ _ _) hloc
      hother (fun _ => rfl) h2 nofun
    have hview : ∀ t', ((C.s.plain t [] C.s.s).view t').seen .tos = (C.s.view t').seen .tos := by
      intro t'
      simp only [WSt.plain]
      by_cases h : t' = t
      · subst h; rw [upd_self]; rfl
      · rw [upd_ne _ _ _ h]
    have hview' := fun t' => Nat.le_of_eq (hview t').symm
    have hgi : GInv cfg ⟨(C.s.plain t [] C.s.s).s, upd C.pc t (k x)⟩ g c := by
      refine ⟨hi.gi.si, fun t' => ?_⟩
      by_cases ht : t' = t
      · subst ht; simpa [WSt.plain] using h1
      · simp only [upd_ne _ _ _ ht]; exact hi.gi.loc t'
    refine ⟨g, c, _, hi.same hgi hm rfl rfl rfl hview' (fun _ _ => rfl) (hrel.mono (hview' t)), ?_⟩
    rw [upd_same]
    exact .stay _
  | @skip p' hq =>
    obtain ⟨hst, hc, hl, -, -⟩ := quiet_tstep hq t C.s.s
    obtain ⟨-, hsp⟩ := tstep_plain hst hc hl
    obtain ⟨g', c', hgi, hcm, hg, ho⟩ := hi.gi.step (t := t) hst (quiet_ok hq C.s.s).1 (quiet_ok hq C.s.s).2
    have hm := hi.mem.skip (t := t) (p' := p') hi.gi.si hgi.si hg hsp
    have hl' := hgi.loc t
    simp only [upd_self] at hl'
    rcases CMove.silent hcm ho with ⟨h1, h2⟩ | ⟨o', P, r, h1, h2, h3⟩
    · refine ⟨g', c', _, hi.same hgi hm rfl rfl h1 (fun _ => Nat.le_refl _) ho (h2 _ _ hrel), ?_⟩
      rw [upd_same]
      exact .stay _
    · rw [h2] at hl'
      obtain ⟨h4, h5⟩ := plain_effect hst hc hl hloc hl' ⟨_, h1⟩ h3
      rw [h1] at hrel
      obtain ⟨k, hk, hkm⟩ := hrel.pend
      refine ⟨g', c', _, hi.same hgi hm rfl rfl h4 (fun _ => Nat.le_refl _) ho (b := .done o' r ((C.s.view t).seen .tos)) ?_,
        .obs hk hkm (by rw [hi.top]; exact hseen) (h5 _)⟩
      rw [h2]; exact ⟨rfl, rfl, Nat.le_refl _⟩
  | post hp =>
    rw [← hp, upd_same]
    have hm : MInv cfg { C.s with view := upd C.s.view t ((C.s.view t).tick t), posts := C.s.posts ++ [(C.s.view t).tick t] }
        (upd C.pc t (C.pc t)) g :=
      hi.mem.views (t := t) rfl rfl rfl rfl (fun _ _ => rfl) (fun t' h => by simp [upd_ne _ _ _ h])
        (by simpa using View.le_tick _ _) (by simpa [View.tick] using fun l => hi.mem.seen _ (.thread t) l)
        (fun v h => by simpa using h) (fun l o n h => by rw [hp] at h; simp [specSnap] at h)
    have hview : ∀ t', (C.s.view t').seen .tos ≤ (upd C.s.view t ((C.s.view t).tick t) t').seen .tos := by
      intro t'
      by_cases h : t' = t
      · subst h; rw [upd_self]; exact Nat.le_refl _
      · rw [upd_ne _ _ _ h]; exact Nat.le_refl _
    refine ⟨g, c, _, ?_, .stay _⟩
    have h := hi.same (t := t) (p' := C.pc t) (c' := c) (g' := g) (by rw [upd_same]; exact hi.gi) hm rfl rfl rfl hview
      (fun _ _ => rfl) (hrel.mono (hview t))
    rw [upd_same, upd_same] at h
    exact h
  | @wait k v hp hv =>
    rw [← hp, upd_same]
    have hle : View.Le (C.s.view t) (((C.s.view t).join v).tick t) := (View.le_join_left _ _).trans (View.le_tick _ _)
    have hm : MInv cfg { C.s with view := upd C.s.view t (((C.s.view t).join v).tick t) } (upd C.pc t (C.pc t)) g :=
      hi.mem.views (t := t) rfl rfl rfl rfl (fun _ _ => rfl) (fun t' h => by simp [upd_ne _ _ _ h])
        (by simpa using hle)
        (by
          intro l
          have h1 := hi.mem.seen _ (.thread t) l
          have h2 := hi.mem.seen _ (.post (List.mem_of_getElem? hv)) l
          simp [View.tick, View.join]; omega)
        (fun v h => .inl h) (fun l o n h => by rw [hp] at h; simp [specSnap] at h)
    have hview : ∀ t', (C.s.view t').seen .tos ≤ (upd C.s.view t (((C.s.view t).join v).tick t) t').seen .tos := by
      intro t'
      by_cases h : t' = t
      · subst h; rw [upd_self]; exact hle.1 _
      · rw [upd_ne _ _ _ h]; exact Nat.le_refl _
    refine ⟨g, c, _, ?_, .stay _⟩
    have h := hi.same (t := t) (p' := C.pc t) (c' := c) (g' := g) (by rw [upd_same]; exact hi.gi) hm rfl rfl rfl hview
      (fun _ _ => rfl) (hrel.mono (hview t))
    rw [upd_same, upd_same] at h
    exact h

theorem WInv.initial (n : Nat) : WInv cfg (WConf.initial n : WConf α) ⟨initOwn n, downFrom 0 n, [], fun _ => []⟩
    (CState.initial (Stack.spec α cfg.fixed)) (WCState.initial (Stack.spec α cfg.fixed)) :=
  ⟨.initial cfg n, .initial n, rfl, rfl, fun _ _ => by simp [WConf.initial, St.word, St.tosSnap, Conf.initial, WCState.initial, Stack.spec], fun _ => trivial⟩

/-- Every execution satisfies the invariant and is an execution of the canonical weak stack. -/
theorem WFreshExec.inv {n : Nat} {h} {C : WConf α} (hx : WFreshExec cfg n h C) :
    ∃ g c wc, WInv cfg C g c wc ∧ WReach (Stack.spec α cfg.fixed) (h.map evTr) wc := by
  induction hx with
  | refl => exact ⟨_, _, _, .initial n, .init⟩
  | step _ hs hok ih =>
    obtain ⟨g, c, wc, hi, hr⟩ := ih
    obtain ⟨g', c', wc', hi', hm⟩ := hi.step hs hok
    refine ⟨g', c', wc', hi', ?_⟩
    have := hr.move hm
    rename_i e _
    cases e <;> simpa using this

end Verif.Stack
