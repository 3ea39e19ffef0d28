import Verif.Stack.WeakSim

/-!
# Stack under release/acquire memory: no data races, linearizability with respect to happens-before
-/

namespace Verif.Stack
open Lin

variable {α : Type} {cfg : Cfg} {n : Nat} {h : History (Op α × View Loc) (Ret α × View Loc)} {C : WConf α}

/-! ### Vector clocks (proof) -/

/-- How a step changes the views. -/
theorem wtrans_view {t : Nat} {w w' : WSt α} {p p' ch e} (h : WTrans cfg t w p ch w' p' e) :
    ∃ X, w.Has X ∧ (∀ v, w'.Has v → w.Has v ∨ v = w'.view t) ∧ (∀ t', t' ≠ t → w'.view t' = w.view t') ∧
      (w.view t).Le (w'.view t) ∧ X.Le (w'.view t) ∧
      (∀ u, u ≠ t → (w'.view t).vc u ≤ max ((w.view t).vc u) (X.vc u)) ∧ (e.isSome → (w.view t).vc t < (w'.view t).vc t) ∧
      ∀ ev, e = some ev → evView ev = w'.view t ∧ ev.tid = t := by
  have key : ∀ (w' : WSt α) (N X : View Loc), w'.view = upd w.view t N → w'.msg = w.msg → w'.top = w.top →
      (∀ v ∈ w'.posts, v ∈ w.posts ∨ v = N) → ∀ v, w'.Has v → w.Has v ∨ v = w'.view t := by
    intro w' N X h1 h2 h3 h4 v hv
    rw [h1, upd_self]
    cases hv with
    | thread t' =>
      rw [h1]
      by_cases h : t' = t
      · subst h; right; simp
      · left; rw [upd_ne _ _ _ h]; exact .thread t'
    | msg l i hi => rw [h3] at hi; rw [h2]; exact .inl (.msg l i hi)
    | post hp =>
      rcases h4 _ hp with h | h
      · exact .inl (.post h)
      · exact .inr h
  have hne : ∀ (N : View Loc) t', t' ≠ t → upd w.view t N t' = w.view t' := fun N t' h => upd_ne _ _ _ h
  have htick : ∀ (a : View Loc), (a.tick t).vc t = a.vc t + 1 := fun a => by simp [View.tick]
  have htick' : ∀ (a : View Loc) u, u ≠ t → (a.tick t).vc u = a.vc u := fun a u h => by
    simp [View.tick, upd_ne _ _ _ h]
  cases h with
  | @rmw l o s' p' e' hc hw hst =>
    obtain ⟨h1, h2⟩ := rmwView_le w t l
    refine ⟨_, .msg l (w.top l) (Nat.le_refl _), ?_, hne _, by simpa [WSt.rmw] using h1,
      by simpa [WSt.rmw] using h2, ?_, nofun, nofun⟩
    · intro v hv
      simp only [WSt.rmw, upd_self]
      cases hv with
      | thread t' =>
        simp only [WSt.rmw]
        by_cases h : t' = t
        · subst h; right; simp
        · left; rw [upd_ne _ _ _ h]; exact .thread t'
      | msg l' i hi =>
        simp only [WSt.rmw] at hi ⊢
        by_cases h : l' = l
        · subst h
          rw [upd_self] at hi ⊢
          by_cases h' : i = w.top l' + 1
          · subst h'; right; simp
          · left; rw [upd_ne _ _ _ h']; exact .msg l' i (by omega)
        · left; rw [upd_ne _ _ _ h] at hi ⊢; exact .msg l' i hi
      | post hp => exact .inl (.post hp)
    · intro u hu
      simp only [WSt.rmw, upd_self, WSt.rmwView]
      rw [htick' _ _ hu]; exact Nat.le_refl _
  | @plain ch s' p' e' hc hl hk hst =>
    refine ⟨_, .thread t, key _ _ (w.view t) rfl rfl rfl (fun _ h => .inl h), hne _,
      by simpa [WSt.plain] using View.le_tick _ _, by simpa [WSt.plain] using View.le_tick _ _, ?_, ?_, ?_⟩
    · intro u hu; simp only [WSt.plain, upd_self]; rw [htick' _ _ hu]; omega
    · intro _; simp only [WSt.plain, upd_self]; rw [htick]; omega
    · intro ev hev
      cases e' with
      | none => simp at hev
      | some e' =>
        simp only [Option.map_some, Option.some.injEq] at hev
        subst hev
        rcases lawful cfg _ _ _ _ _ _ _ hst with ⟨_, o', rfl⟩ | ⟨r, _, _, rfl⟩ <;>
          simp [stamp, evView, Event.tid, WSt.plain]
  | racing =>
    refine ⟨_, .thread t, key _ _ (w.view t) rfl rfl rfl (fun _ h => .inl h), hne _,
      by simpa [WSt.plain] using View.le_tick _ _, by simpa [WSt.plain] using View.le_tick _ _, ?_, nofun, nofun⟩
    · intro u hu; simp only [WSt.plain, upd_self]; rw [htick' _ _ hu]; omega
  | race =>
    refine ⟨_, .thread t, key _ _ (w.view t) rfl rfl rfl (fun _ h => .inl h), hne _,
      by simpa [WSt.plain] using View.le_tick _ _, by simpa [WSt.plain] using View.le_tick _ _, ?_, nofun, nofun⟩
    · intro u hu; simp only [WSt.plain, upd_self]; rw [htick' _ _ hu]; omega
  | @read i l ord ch s' p' e' hr hlo hhi hst =>
    have hb : ∀ a : View Loc, a.Le ((a.bump l i).tick t) := fun a => (View.le_bump _ _ _).trans (View.le_tick _ _)
    cases ord with
    | acquire =>
      refine ⟨_, .msg l i hhi, key _ _ (w.view t) rfl rfl rfl (fun _ h => .inl h), hne _, ?_, ?_, ?_, nofun, nofun⟩
      · simp only [WSt.recv, upd_self]; exact (View.le_join_left _ _).trans (hb _)
      · simp only [WSt.recv, upd_self]; exact (View.le_join_right _ _).trans (hb _)
      · intro u hu; simp only [WSt.recv, upd_self, WSt.readView]; rw [htick' _ _ hu]; exact Nat.le_refl _
    | relaxed =>
      refine ⟨_, .thread t, key _ _ (w.view t) rfl rfl rfl (fun _ h => .inl h), hne _, ?_, ?_, ?_, nofun, nofun⟩
      · simp only [WSt.recv, upd_self]; exact hb _
      · simp only [WSt.recv, upd_self]; exact hb _
      · intro u hu; simp only [WSt.recv, upd_self, WSt.readView]; rw [htick' _ _ hu]; simp only [View.bump]; omega
    | consume =>
      refine ⟨_, .thread t, key _ _ (w.view t) rfl rfl rfl (fun _ h => .inl h), hne _, ?_, ?_, ?_, nofun, nofun⟩
      · simp only [WSt.recv, upd_self]; exact hb _
      · simp only [WSt.recv, upd_self]; exact hb _
      · intro u hu; simp only [WSt.recv, upd_self, WSt.readView]; rw [htick' _ _ hu]; simp only [View.bump]; omega
  | skip =>
    exact ⟨_, .thread t, fun _ h => .inl h, fun _ _ => rfl, .refl _, .refl _, fun u hu => by omega, nofun, nofun⟩
  | post hp =>
    refine ⟨_, .thread t, key _ _ (w.view t) rfl rfl rfl (fun _ h => by simpa using h), hne _,
      by simpa using View.le_tick _ _, by simpa using View.le_tick _ _, ?_, nofun, nofun⟩
    · intro u hu; simp only [upd_self]; rw [htick' _ _ hu]; omega
  | @wait k v hp hv =>
    refine ⟨_, .post (List.mem_of_getElem? hv), key _ _ (w.view t) rfl rfl rfl (fun _ h => .inl h), hne _, ?_, ?_, ?_, nofun, nofun⟩
    · simp only [upd_self]; exact (View.le_join_left _ _).trans (View.le_tick _ _)
    · simp only [upd_self]; exact (View.le_join_right _ _).trans (View.le_tick _ _)
    · intro u hu; simp only [upd_self]; rw [htick' _ _ hu]; exact Nat.le_refl _

/-- What the vector clocks mean. -/
structure Clk (h : History (Op α × View Loc) (Ret α × View Loc)) (C : WConf α) : Prop where
  top : ∀ v, C.s.Has v → ∀ u, v.vc u ≤ (C.s.view u).vc u
  ev : ∀ e ∈ h, (evView e).Le (C.s.view e.tid) ∧
    ∀ v, C.s.Has v → (evView e).vc e.tid ≤ v.vc e.tid → (evView e).Le v
  hb : ∀ (j i : Nat) e f, h[j]? = some e → h[i]? = some f → j < i → (evView e).vc e.tid ≤ (evView f).vc e.tid →
    (evView e).Le (evView f)

theorem WExec.clk (hx : WExec cfg n h C) : Clk h C := by
  induction hx with
  | refl =>
    refine ⟨fun v hv u => ?_, nofun, nofun⟩
    cases hv with
    | thread | msg => simp [WConf.initial, View.bot]
    | post h => simp [WConf.initial] at h
  | @step h C t ch w' p' e hx hs _ ih =>
    obtain ⟨X, hX, hhas, hoth, hle, hleX, hmax, hlt, hev⟩ := wtrans_view (wtrans_of_wstep hs)
    have hmono : ∀ t', (C.s.view t').Le (w'.view t') := by
      intro t'
      by_cases h : t' = t
      · subst h; exact hle
      · rw [hoth t' h]; exact .refl _
    have htop : ∀ v, w'.Has v → ∀ u, v.vc u ≤ (w'.view u).vc u := by
      intro v hv u
      rcases hhas v hv with h | h
      · exact Nat.le_trans (ih.top v h u) ((hmono u).2 u)
      · subst h
        by_cases h : u = t
        · subst h; exact Nat.le_refl _
        · rw [hoth u h]
          have h1 := hmax u h
          have h2 := ih.top _ (.thread t) u
          have h3 := ih.top _ hX u
          omega
    have hold : ∀ e ∈ h, (evView e).Le (w'.view e.tid) ∧
        ∀ v, w'.Has v → (evView e).vc e.tid ≤ v.vc e.tid → (evView e).Le v := by
      intro e he
      obtain ⟨h1, h2⟩ := ih.ev e he
      refine ⟨h1.trans (hmono _), fun v hv hvc => ?_⟩
      rcases hhas v hv with h | h
      · exact h2 v h hvc
      · subst h
        by_cases h : e.tid = t
        · rw [h] at h1; exact h1.trans hle
        · have h3 := hmax _ h
          by_cases h4 : (evView e).vc e.tid ≤ (C.s.view t).vc e.tid
          · exact (h2 _ (.thread t) h4).trans hle
          · exact (h2 _ hX (by omega)).trans hleX
    cases e with
    | none => simpa using ⟨htop, hold, ih.hb⟩
    | some ev =>
      obtain ⟨he1, he2⟩ := hev ev rfl
      have hnew : (evView ev).Le (w'.view ev.tid) ∧
          ∀ v, w'.Has v → (evView ev).vc ev.tid ≤ v.vc ev.tid → (evView ev).Le v := by
        rw [he1, he2]
        refine ⟨.refl _, fun v hv hvc => ?_⟩
        rcases hhas v hv with h | h
        · have := ih.top v h t; have := hlt rfl; omega
        · subst h; exact .refl _
      refine ⟨htop, fun e he => ?_, fun j i e f hj hi hji hvc => ?_⟩
      · simp only [Option.toList_some, List.mem_append, List.mem_singleton] at he
        rcases he with he | rfl
        · exact hold e he
        · exact hnew
      · simp only [Option.toList_some] at hj hi
        have h1 := lt_of_getElem? hi
        simp only [List.length_append, List.length_singleton] at h1
        have hj' : h[j]? = some e := by rwa [List.getElem?_append_left (by omega)] at hj
        by_cases h2 : i < h.length
        · rw [List.getElem?_append_left h2] at hi
          exact ih.hb j i e f hj' hi hji hvc
        · have h3 : i = h.length := by omega
          subst h3
          simp at hi
          subst hi
          have h4 := hold e (List.mem_of_getElem? hj')
          rw [he1] at hvc ⊢
          exact h4.2 _ (.thread t) hvc

theorem WFreshExec.exec (hx : WFreshExec cfg n h C) : WExec cfg n h C := hx.mono fun _ _ _ _ => trivial

/-! ### Theorems -/

theorem evs_evTr (h : History (Op α × View Loc) (Ret α × View Loc)) : evs (h.map evTr) = bare h := by
  simp only [evs, bare, List.map_map]
  congr 1

/-- **C47 (linearizability).** Under the release/acquire memory model, the histories of the stack are linearizable with respect to
happens-before: there is one total order of the calls that explains all results by the sequential stack and
that never places a call before one whose return happens before it. -/
theorem stack_ra_linearizable (hx : WFreshExec cfg n h C) : HbLinearizable (spec α cfg.fixed) (HB h) (bare h) := by
  obtain ⟨g, c, wc, hi, hr⟩ := hx.inv
  have hclk := hx.exec.clk
  obtain ⟨L, hL, _⟩ := hr.linearization (hb := HB h) (by
    rintro j i t r t' o - - ⟨hji, e, f, h1, h2, h3⟩
    refine ⟨hji, ?_⟩
    have := (hclk.hb j i _ _ h1 h2 hji h3).1 .tos
    simpa [stampAt, h1, h2, evTr] using this)
  rw [evs_evTr] at hL
  exact ⟨L, hL⟩

/-- **C47 (no undefined behaviour).** No thread ever performs a racing access to a node, constructs over a live
element or uses a destroyed one. -/
theorem stack_ra_no_error (hx : WFreshExec cfg n h C) (t : Nat) : C.pc t ≠ .err := by
  obtain ⟨g, c, wc, hi, _⟩ := hx.inv
  intro he
  have := hi.gi.loc t
  rw [show (⟨C.s.s, C.pc⟩ : Conf α).pc t = C.pc t from rfl, he] at this
  exact this

/-- **C47 (race freedom).** Whenever a thread is about to access a node (other than by a speculative read), all
earlier accesses to that node by other threads happen before: each of them was a step of its thread that the
accessing thread knows. -/
theorem stack_ra_race_free (hx : WFreshExec cfg n h C) {t m : Nat} (hm : m ∈ touch (C.pc t)) {u k : Nat}
    (ha : (u, k) ∈ C.s.acc m) : k ≤ (C.s.view t).vc u := by
  obtain ⟨g, c, wc, hi, _⟩ := hx.inv
  have h1 := hi.mem.thr m t ((hi.gi.si.heap.hmem t m).2 ((hi.gi.loc t).touch_held hm))
  exact View.knows_iff.1 h1 _ ha

/-- **C47 (linearizability of synchronised clients).** If the clients synchronise so that every call
happens after all calls that returned earlier, the histories are linearizable in the usual sense. -/
theorem stack_ra_linearizable_sync (hx : WFreshExec cfg n h C)
    (hsync : ∀ j i t r t' o, h[j]? = some (.res t r) → h[i]? = some (.inv t' o) → j < i → HB h j i) :
    Linearizable (spec α cfg.fixed) (bare h) := by
  obtain ⟨L, hL⟩ := stack_ra_linearizable hx
  refine ⟨L, hL.linearization ?_⟩
  intro j i t r t' o h1 h2 hji
  simp only [bare, List.getElem?_map, Option.map_eq_some_iff] at h1 h2
  obtain ⟨e, he, h3⟩ := h1
  obtain ⟨f, hf, h4⟩ := h2
  cases e <;> cases f <;> simp at h3 h4
  exact hsync j i _ _ _ _ he hf hji

end Verif.Stack
