import Verif.Stack.WeakTextSim
import Verif.Stack.WeakMore
import Verif.Stack.TextProps

/-!
# The program text of the stack under the release/acquire memory model: theorems (C62)

No further code of /repo is modelled here.
-/

namespace Verif.Stack.Code
open Lin Text

variable {α : Type} {R : Rep} {n : Nat} {h : History (Op α × View Stack.Loc) (Ret α × View Stack.Loc)} {C : RaConf R α}

/-- **C62 (refinement).** Every execution of the program text under the release/acquire memory model has the history, with the same happens-before relation,
of an execution of the machine of C47. -/
theorem stack_ra_text_refines (hf : R.Faithful) (hn : n ≤ R.limit) (hx : RaTextExec R n h C) : ∃ D : WConf α, WFreshExec R.cfg n h D := by
  obtain ⟨D, hx, -⟩ := ra_simulated hf hn hx
  exact ⟨D, hx⟩

/-- **C62 (linearizability).** There is one total order of the calls that explains all results by the sequential stack and that never places a call
before one whose return happens before it. -/
theorem stack_ra_text_linearizable (hf : R.Faithful) (hn : n ≤ R.limit) (hx : RaTextExec R n h C) :
    HbLinearizable (spec α R.fixed) (HB h) (bare h) := by
  obtain ⟨D, hx⟩ := stack_ra_text_refines hf hn hx
  exact stack_ra_linearizable hx

/-- **C62 (linearizability of synchronised clients).** -/
theorem stack_ra_text_linearizable_sync (hf : R.Faithful) (hn : n ≤ R.limit) (hx : RaTextExec R n h C)
    (hsync : ∀ j i t r t' o, h[j]? = some (.res t r) → h[i]? = some (.inv t' o) → j < i → HB h j i) :
    Linearizable (spec α R.fixed) (bare h) := by
  obtain ⟨D, hx⟩ := stack_ra_text_refines hf hn hx
  exact stack_ra_linearizable_sync hx hsync

/-- **C62 (no undefined behaviour).** In particular, no access to a node is a data race, other than speculative reads. -/
theorem stack_ra_text_no_undefined_behaviour (hf : R.Faithful) (hn : n ≤ R.limit) (hx : RaTextExec R n h C) (t : Nat) : C.pc t ≠ .err := by
  obtain ⟨D, hx, -, hp⟩ := ra_simulated hf hn hx
  intro he
  obtain ⟨q, _, h1, h2⟩ := hp t
  have h3 := stack_ra_no_error hx t
  rw [he] at h1
  cases (show q = .err from h1)
  generalize D.pc t = p at h2 h3
  cases h2
  exact h3 rfl

/-- **C62 (race freedom).** Whenever a thread is about to access nodes, other than by a speculative read, it knows all earlier accesses to them. -/
theorem stack_ra_text_race_free (hf : R.Faithful) (hn : n ≤ R.limit) (hx : RaTextExec R n h C) {t : Nat} {l : Loc R.K α} {a : LAcc R α} {k : LRest R α}
    (ht : C.pc t = .run l (.stm (.acc a) :: k)) {ns : List Nat} (hk : a.kind l = .plain ns) {m : Nat} (hm : m ∈ ns) {u i : Nat}
    (ha : (u, i) ∈ C.s.acc m) : i ≤ (C.s.view t).vc u := by
  obtain ⟨D, hx, hw, hp⟩ := ra_simulated hf hn hx
  obtain ⟨q, _, h1, h2⟩ := hp t
  rw [ht] at h1
  obtain ⟨_, _, h1⟩ := h1
  have h3 := kind_agrees hf hw.st (Leads.stuck h1 rfl).1 h2
  rw [hk] at h3
  obtain ⟨-, -, rfl⟩ := h3
  rw [hw.view]
  rw [hw.acc] at ha
  exact stack_ra_race_free hx hm ha

/-- **C62 (no duplication, no invention).** -/
theorem stack_ra_text_delivers_only_offered (hf : R.Faithful) (hn : n ≤ R.limit) (hx : RaTextExec R n h C) :
    (delivered (bare h)).Subperm (offered (bare h)) := by
  obtain ⟨D, hx⟩ := stack_ra_text_refines hf hn hx
  exact stack_ra_delivers_only_offered hx

/-- **C62 (conservation).** -/
theorem stack_ra_text_conservation (hf : R.Faithful) (hn : n ≤ R.limit) (hx : RaTextExec R n h C) (hq : ∀ t, C.pc t = .idle)
    (hno : ∀ t rev k, Event.inv t (.consumeAll rev (some k)) ∉ bare h) :
    ∃ vs, HoldsW R C.s.s vs ∧ (delivered (bare h) ++ vs).Perm (accepted (bare h)) := by
  obtain ⟨D, hx, hw, hp⟩ := ra_simulated hf hn hx
  have hq' : ∀ t, D.pc t = .idle := by
    intro t
    obtain ⟨q, _, h1, h2⟩ := hp t
    rw [hq t] at h1
    cases (show q = .idle from h1)
    generalize D.pc t = p at h2 ⊢
    cases h2
    rfl
  obtain ⟨vs, h1, h2⟩ := stack_ra_conservation hx hq' hno
  exact ⟨vs, hw.st.holds hf h1, h2⟩

/-- **C62 (publication).** Everything the pushing thread did before calling `push` is visible to the thread that receives the value: some call that offered
the value happens before the return that delivers it. -/
theorem stack_ra_text_publication (hf : R.Faithful) (hn : n ≤ R.limit) (hx : RaTextExec R n h C) {j t : Nat} {r : Ret α} {v : View Stack.Loc} {x : α}
    (hj : h[j]? = some (.res t (r, v))) (hr : x ∈ retVals r) :
    ∃ (i u : Nat) (o : Op α) (w : View Stack.Loc), h[i]? = some (.inv u (o, w)) ∧ x ∈ offeredBy o ∧ HB h i j := by
  obtain ⟨D, hx⟩ := stack_ra_text_refines hf hn hx
  exact stack_ra_publication hx.exec hj hr

/-- **C62 (happens-before: program order).** An event of a thread happens before the later events of the same thread. -/
theorem stack_ra_text_hb_program_order (hf : R.Faithful) (hn : n ≤ R.limit) (hx : RaTextExec R n h C) {j i : Nat} (hji : j < i) {e f}
    (he : h[j]? = some e) (hi : h[i]? = some f) (ht : e.tid = f.tid) : HB h j i := by
  obtain ⟨D, hx⟩ := stack_ra_text_refines hf hn hx
  exact stack_ra_hb_program_order hx.exec hji he hi ht

/-! ### Sequentially consistent executions are included -/

theorem withWord_self (s : SSt R.K α) (lc : Stack.Loc) : withWord s (word s lc) lc = s := by cases lc <;> rfl

/-- What loads and compare-exchanges do, at the places of the text. -/
theorem kind_run {s : SSt R.K α} {l : Loc R.K α} {a : LAcc R α} {k q} (hat : Core l (.stm (.acc a) :: k) q) {t ch s' l' f}
    (hr : a.run t s l ch = some (s', l', f)) :
    (∀ x ord, a.kind l = .load x ord → ch = .go ∧ s' = s) ∧
    ∀ x won, a.kind l = .cas x won → won l' = true ∨ (s' = s ∧ a.run t s l .spur = some (s, l', f)) := by
  have hcas : ∀ {removes}, a = casTos (R := R) (α := α) removes → l'.cas = true ∨ (s' = s ∧ a.run t s l .spur = some (s, l', f)) := by
    rintro removes rfl
    simp only [casTos] at hr ⊢
    cases ch <;> simp only [reduceCtorEq] at hr
    · split at hr <;> cases hr
      · exact .inl rfl
      · exact .inr ⟨rfl, rfl⟩
    · cases hr; exact .inr ⟨rfl, rfl⟩
  have hcas' : ∀ {removes}, a = (port R α).casPool (O := Op α) removes → l'.fl.cas = true ∨ (s' = s ∧ a.run t s l .spur = some (s, l', f)) := by
    rintro removes rfl
    simp only [Port.casPool, Port.acc] at hr ⊢
    cases ch <;> simp only [Option.map_none, Option.map_some, reduceCtorEq] at hr
    · by_cases he : ((port R α).mem s).pool = ((port R α).fl l).old_pool.v
      · rw [if_pos he] at hr; cases hr; exact .inl rfl
      · rw [if_neg he] at hr; cases hr; exact .inr ⟨rfl, rfl⟩
    · cases hr; exact .inr ⟨rfl, rfl⟩
  have hload : ∀ {ord}, a = loadTos (R := R) (α := α) ord → ch = .go ∧ s' = s := by
    rintro ord rfl
    simp only [loadTos] at hr
    cases ch <;> simp only [reduceCtorEq] at hr
    cases hr; exact ⟨rfl, rfl⟩
  have hload' : a = (port R α).loadPool (O := Op α) → ch = .go ∧ s' = s := by
    rintro rfl
    simp only [Port.loadPool, Port.acc] at hr
    cases ch <;> simp only [Option.map_none, Option.map_some, reduceCtorEq] at hr
    cases hr; exact ⟨rfl, rfl⟩
  generalize hK : Item.stm (.acc a) :: k = K at hat
  cases hat with
  | alloc hc ha =>
    subst hK
    cases ha with
    | load => exact ⟨fun _ _ _ => hload' rfl, fun _ _ hk => (by cases hk)⟩
    | os => exact ⟨fun _ _ hk => (by cases hk), fun _ _ hk => (by cases hk)⟩
    | read ho hn =>
      refine ⟨fun _ _ hk => ?_, fun _ _ hk => ?_⟩ <;> subst ho <;> simp only [Port.readLink, Port.acc, hn] at hk <;> cases hk
    | cas => exact ⟨fun _ _ hk => (by cases hk), fun _ _ hk => (by cases hk; exact hcas' rfl)⟩
  | free hc hd =>
    subst hK
    cases hd with
    | load => exact ⟨fun _ _ _ => hload' rfl, fun _ _ hk => (by cases hk)⟩
    | set => exact ⟨fun _ _ hk => (by cases hk), fun _ _ hk => (by cases hk)⟩
    | cas => exact ⟨fun _ _ hk => (by cases hk), fun _ _ hk => (by cases hk; exact hcas' rfl)⟩
  | fin => simp at hK
  | lload | pload | cload | eload => cases hK; exact ⟨fun _ _ _ => hload rfl, fun _ _ hk => (by cases hk)⟩
  | lcas | pcas | ccas => cases hK; exact ⟨fun _ _ hk => (by cases hk), fun _ _ hk => (by cases hk; exact hcas rfl)⟩
  | @ptest l thr o n h1 h2 h3 h4 h5 =>
    cases hK
    refine ⟨fun _ _ hk => ?_, fun _ _ hk => ?_⟩ <;> simp only [readNextSpec, h5] at hk <;> cases hk
  | _ => cases hK; exact ⟨fun _ _ hk => (by cases hk), fun _ _ hk => (by cases hk)⟩

/-- The newest message of an object is its value, and threads have not seen newer ones. -/
theorem ra_newest {D : WConf α} {g c wc} (hi : WInv R.cfg D g c wc) {w : RaSt R α} (hw : RaRel R D.s w) (t : Nat) (lc : Stack.Loc) :
    (w.msg lc (w.top lc)).val = word w.s lc ∧ (w.view t).seen lc ≤ w.top lc := by
  rw [hw.view, hw.top]
  refine ⟨?_, hi.mem.seen _ (.thread t) lc⟩
  have h1 := hw.mval lc _ (Nat.le_refl _)
  rw [hi.mem.last lc] at h1
  have h2 := word_rel hw.st lc
  generalize (w.msg lc (D.s.top lc)).val = x at h1
  generalize word w.s lc = y at h2
  cases x; cases y
  rw [SSnap.mk.injEq]
  exact ⟨h1.val.trans h2.val.symm, h1.ver.trans h2.ver.symm⟩

/-- **C62 (relation to C52).** Every sequentially consistent execution of the program text is one under the release/acquire memory model. -/
theorem stack_ra_text_includes_sc (hf : R.Faithful) (hn : n ≤ R.limit) {h : History (Op α) (Ret α)} {C : TConf R α} (hx : TextExec R n h C) :
    ∃ h' C', RaTextExec R n h' C' ∧ bare h' = h ∧ C'.s.s = C.s ∧ C'.pc = C.pc := by
  induction hx with
  | refl => exact ⟨[], RaConf.initial R α n, .refl _, rfl, rfl, rfl⟩
  | @step h C t ch s' p' e _ hs hok ih =>
    obtain ⟨h', C', hx', rfl, h2, h3⟩ := ih
    obtain ⟨D, hD, hw, hp⟩ := ra_simulated hf hn hx'
    obtain ⟨g, c, wc, hi, -⟩ := hD.inv
    have key : ∀ {ch' w' e'}, (raMach (program R α)).step t C'.s (C'.pc t) ch' = some (w', p', e') → raOk C'.s (C'.pc t) ch' →
        w'.s = s' → e'.map bareEv = e →
        ∃ h'' C'', RaTextExec R n h'' C'' ∧ bare h'' = bare h' ++ e.toList ∧ C''.s.s = s' ∧ C''.pc = upd C.pc t p' := by
      rintro ch' w' e' h4 h5 rfl rfl
      exact ⟨_, _, .step hx' h4 h5, bare_snoc _ _, rfl, by rw [h3]⟩
    have hp := hp t
    have hrf := fun l a k (h : C'.pc t = .run l (.stm (.acc a) :: k)) ns hk m hm u i =>
      stack_ra_text_race_free hf hn hx' (t := t) (l := l) (a := a) (k := k) h (ns := ns) hk (m := m) hm (u := u) (i := i)
    rw [← h2, ← h3] at hs hok
    generalize C'.pc t = tp at *
    simp only [Program.mach] at hs
    split at hs
    · simp only [Option.map_eq_some_iff] at hs
      obtain ⟨x, h4, h5⟩ := hs
      cases h5
      refine key (ch' := .call _) (w' := C'.s.plain t [] C'.s.s) (e' := some _) (by simp only [raMach, h4]; rfl) hok rfl rfl
    · cases hs
      exact key (ch' := .tau) rfl trivial rfl rfl
    · simp only [Option.map_eq_some_iff] at hs
      obtain ⟨x, h4, h5⟩ := hs
      cases h5
      rename_i l k _
      refine key (ch' := .tau) (w' := C'.s) (e' := none) ?_ ?_ rfl rfl
      · simp only [raMach, h4]; rfl
      · unfold raOk; split <;> simp_all
    · rename_i l a k ch
      have hs' : ∃ l' f, a.run t C'.s.s l ch = some (s', l', f) ∧ p' = after l' k f ∧ e = none := by
        split at hs <;> cases hs <;> exact ⟨_, _, by assumption, rfl, rfl⟩
      obtain ⟨l', f, h4, rfl, rfl⟩ := hs'
      obtain ⟨q, _, h5, h6⟩ := hp
      obtain ⟨_, _, h5⟩ := h5
      have h7 := Leads.stuck h5 rfl
      have hag := kind_agrees hf hw.st h7.1 h6
      obtain ⟨h8, h9⟩ := kind_run h7.1 h4
      have key' : ∀ {ch' w'}, raAccess t C'.s l a ch' = some (w', l', f) → (∀ c, ch' = .act c → c = ch) → ch' ≠ .tau →
          w'.s = s' →
          ∃ h'' C'', RaTextExec R n h'' C'' ∧ bare h'' = bare h' ++ [] ∧ C''.s.s = s' ∧ C''.pc = upd C.pc t (after l' k f) := by
        intro ch' w' h10 h11 h12 h13
        refine key (ch' := ch') (w' := w') (e' := none) ?_ ?_ h13 rfl
        · cases ch' <;> first | (simp only [raMach, h10]; rfl) | exact absurd rfl h12
        · cases ch' <;> first | trivial | skip
          rw [h11 _ rfl]
          exact hok
      rcases hk : a.kind l with ns | ⟨x, ord⟩ | ⟨x, won⟩ | ⟨m, race⟩ | ⟨x, y, ord⟩ | ⟨x, won⟩ | ⟨x, won, ns⟩ | ⟨m, b, ns⟩ | ⟨m, race⟩
      · refine key' (ch' := .act ch) ?_ (by simp) (by simp) (w' := C'.s.plain t ns s') rfl
        have h10 : (ns.all fun n => (C'.s.view t).knows (C'.s.acc n)) = true := by
          rw [List.all_eq_true]
          intro m hm
          exact View.knows_iff.2 fun y hy => hrf l a k rfl ns hk m hm y.1 y.2 hy
        simp only [raAccess, hk, h10, if_true, h4]
        rfl
      · rw [hk] at hag
        obtain ⟨-, lc, h10, -⟩ := hag
        obtain ⟨rfl, rfl⟩ := h8 _ _ hk
        obtain ⟨h11, h12⟩ := ra_newest hi hw t lc
        refine key' (ch' := .read (C'.s.top lc)) ?_ (by simp) (by simp) (w' := C'.s.recv t lc (C'.s.top lc) ord) rfl
        simp only [raAccess, hk, h10, h11, withWord_self, h4, h12, Nat.le_refl, and_self, if_true]
        rfl
      · rw [hk] at hag
        obtain ⟨-, lc, o, h10, -⟩ := hag
        rcases h9 _ _ hk with h13 | ⟨rfl, h13⟩
        · refine key' (ch' := .act ch) ?_ (by simp) (by simp) (w' := C'.s.rmw t lc s') rfl
          simp only [raAccess, hk, h10, h4, h13, if_true]
        · obtain ⟨h11, h12⟩ := ra_newest hi hw t lc
          refine key' (ch' := .read (C'.s.top lc)) ?_ (by simp) (by simp) (w' := C'.s.recv t lc (C'.s.top lc) .acquire) rfl
          simp only [raAccess, hk, h10, h11, withWord_self, h13, h12, Nat.le_refl, and_self, if_true]
          rfl
      · refine key' (ch' := .act ch) ?_ (by simp) (by simp) (w' := C'.s.plain t [] s') rfl
        simp only [raAccess, hk, h4]
        rfl
      all_goals
        rw [hk] at hag
        exact hag.elim
    · cases hs
      exact key (ch' := .tau) (e' := some _) rfl trivial rfl rfl
    · simp [program] at hs
    · cases hs

/-! ### Client synchronisation -/

section
variable {L : Type} {P : Program (SSt R.K α) L (SChoice R.K (Op α) α) (Op α) (Ret α)}

/-- `w'` differs from `w` in the view of `t` only, which has grown, and there are no new posts. -/
def OnlyView (t : Nat) (w w' : RaSt R α) : Prop :=
  (∀ u, u ≠ t → w'.view u = w.view u) ∧ (w.view t).Le (w'.view t) ∧ w'.posts = w.posts

theorem OnlyView.plain (t : Nat) (w : RaSt R α) (ns : List Nat) (s' : SSt R.K α) : OnlyView t w (w.plain t ns s') :=
  ⟨fun _ hu => upd_ne _ _ _ hu, by simpa [RaSt.plain] using View.le_tick _ _, rfl⟩

theorem OnlyView.recv (t : Nat) (w : RaSt R α) (lc : Stack.Loc) (i : Nat) (ord : Order) : OnlyView t w (w.recv t lc i ord) := by
  refine ⟨fun _ hu => upd_ne _ _ _ hu, ?_, rfl⟩
  simp only [RaSt.recv, upd_self]
  cases ord <;> simp only [RaSt.readView]
  case acquire => exact (View.le_join_left _ _).trans ((View.le_bump _ _ _).trans (View.le_tick _ _))
  all_goals exact (View.le_bump _ _ _).trans (View.le_tick _ _)

theorem OnlyView.rmw (t : Nat) (w : RaSt R α) (lc : Stack.Loc) (s' : SSt R.K α) : OnlyView t w (w.rmw t lc s') := by
  refine ⟨fun _ hu => upd_ne _ _ _ hu, ?_, rfl⟩
  simp only [RaSt.rmw, upd_self]
  exact (View.le_join_left _ _).trans ((View.le_bump _ _ _).trans (View.le_tick _ _))

theorem raAccess_view {t : Nat} {w : RaSt R α} {l : L} {a : Access (SSt R.K α) L (SChoice R.K (Op α) α)} {ch x}
    (h : raAccess t w l a ch = some x) : OnlyView t w x.1 := by
  cases ch with
  | act ch =>
    simp only [raAccess] at h
    split at h
    · split at h
      · simp only [Option.map_eq_some_iff] at h
        obtain ⟨y, -, rfl⟩ := h
        exact .plain ..
      · cases h; exact .plain ..
    · cases h
    · split at h
      · split at h
        · cases h; exact .rmw ..
        · cases h
      · cases h
    · simp only [Option.map_eq_some_iff] at h
      obtain ⟨y, -, rfl⟩ := h
      exact .plain ..
    · cases h
  | read i =>
    simp only [raAccess] at h
    split at h
    · split at h
      · cases h
      · split at h
        · simp only [Option.map_eq_some_iff] at h
          obtain ⟨y, -, rfl⟩ := h
          exact .recv ..
        · cases h
    · split at h
      · cases h
      · split at h
        · simp only [Option.map_eq_some_iff] at h
          obtain ⟨y, -, rfl⟩ := h
          exact .recv ..
        · cases h
    · cases h
  | race ch =>
    simp only [raAccess] at h
    split at h
    · split at h
      · cases h
      · simp only [Option.map_eq_some_iff] at h
        obtain ⟨y, -, rfl⟩ := h
        exact .plain ..
    · cases h
  | _ => simp [raAccess] at h

/-- What a step does to the views. -/
theorem ra_view {t : Nat} {w w' : RaSt R α} {p p' ch ev} (h : (raMach P).step t w p ch = some (w', p', ev)) :
    (∀ u, u ≠ t → w'.view u = w.view u) ∧ (w.view t).Le (w'.view t) ∧ (∃ vs, w'.posts = w.posts ++ vs) ∧
      ∀ e, ev = some e → evView e = w'.view t ∧ e.tid = t := by
  have only : ∀ {w' : RaSt R α}, OnlyView t w w' → (∀ e, ev = some e → evView e = w'.view t ∧ e.tid = t) →
      (∀ u, u ≠ t → w'.view u = w.view u) ∧ (w.view t).Le (w'.view t) ∧ (∃ vs, w'.posts = w.posts ++ vs) ∧
      ∀ e, ev = some e → evView e = w'.view t ∧ e.tid = t := fun h h' => ⟨h.1, h.2.1, ⟨[], by rw [h.2.2]; simp⟩, h'⟩
  simp only [raMach] at h
  split at h
  · simp only [Option.map_eq_some_iff] at h
    obtain ⟨y, -, h⟩ := h
    cases h
    exact only (.plain ..) (by rintro e h; cases h; simp [evView, Event.tid, RaSt.plain])
  · cases h
    exact ⟨fun _ hu => upd_ne _ _ _ hu, by simpa using View.le_tick _ _, ⟨_, rfl⟩, by rintro e h; cases h⟩
  · simp only [Option.map_eq_some_iff] at h
    obtain ⟨y, -, h⟩ := h
    cases h
    exact ⟨fun _ hu => upd_ne _ _ _ hu, by simpa using (View.le_join_left _ _).trans (View.le_tick _ _), ⟨[], by simp⟩, by rintro e h; cases h⟩
  · cases h
    exact only ⟨fun _ _ => rfl, .refl _, rfl⟩ (by rintro e h; cases h)
  · simp only [Option.map_eq_some_iff] at h
    obtain ⟨y, -, h⟩ := h
    cases h
    exact only ⟨fun _ _ => rfl, .refl _, rfl⟩ (by rintro e h; cases h)
  · simp only [Option.map_eq_some_iff] at h
    obtain ⟨y, h1, h⟩ := h
    cases h
    exact only (raAccess_view h1) (by rintro e h; cases h)
  · cases h
    exact only (.plain ..) (by rintro e h; cases h; simp [evView, Event.tid, RaSt.plain])
  · cases h

theorem ra_mono {ok C₀ C} {h : History (Op α × View Stack.Loc) (Ret α × View Stack.Loc)} (hx : MSteps (raMach P) ok C₀ h C) :
    (∀ t, (C₀.s.view t).Le (C.s.view t)) ∧ (∀ (k : Nat) v, C₀.s.posts[k]? = some v → C.s.posts[k]? = some v) ∧
      ∀ e ∈ h, (C₀.s.view e.tid).Le (evView e) ∧ (evView e).Le (C.s.view e.tid) := by
  induction hx with
  | refl => exact ⟨fun t => .refl _, fun _ _ h => h, nofun⟩
  | @step h C t ch w' p' ev hx hs _ ih =>
    obtain ⟨h1, h2, h3⟩ := ih
    obtain ⟨hoth, hle, ⟨vs, hvs⟩, hev⟩ := ra_view hs
    have hmono : ∀ t', (C.s.view t').Le (w'.view t') := by
      intro t'
      by_cases h : t' = t
      · subst h; exact hle
      · rw [hoth t' h]; exact .refl _
    refine ⟨fun t' => (h1 t').trans (hmono t'), fun k v hv => ?_, fun e he => ?_⟩
    · have h4 := h2 k v hv
      simp only [hvs]
      rw [List.getElem?_append_left (List.getElem?_eq_some_iff.1 h4).1]
      exact h4
    · rcases List.mem_append.1 he with he | he
      · exact ⟨(h3 e he).1, (h3 e he).2.trans (hmono _)⟩
      · cases ev with
        | none => simp at he
        | some ev =>
          simp at he
          subst he
          obtain ⟨h4, h5⟩ := hev _ rfl
          rw [h4, h5]
          exact ⟨(h1 t).trans hle, .refl _⟩

/-- **C62 (happens-before: client synchronisation).** For any program: if thread `u` posts after an event of its own, and thread `t` waits for that post
before one of its events, the former event happens before the latter. -/
theorem stack_ra_text_hb_post_wait {ok} {C₀ C₁ C₂ C₃ C₄ C₅ : MConf (RaSt R α) (TPC (SSt R.K α) L (SChoice R.K (Op α) α) (Ret α))} {h₁ h₂ h₃} {u t : Nat}
    (h1 : MSteps (raMach P) ok C₀ h₁ C₁) (hpost : (raMach P).step u C₁.s (C₁.pc u) .post = some (C₂.s, C₂.pc u, none))
    (h2 : MSteps (raMach P) ok C₂ h₂ C₃)
    (hwait : (raMach P).step t C₃.s (C₃.pc t) (.wait C₁.s.posts.length) = some (C₄.s, C₄.pc t, none))
    (h3 : MSteps (raMach P) ok C₄ h₃ C₅) {j i : Nat} {e f} (he : h₁[j]? = some e)
    (hf : h₃[i]? = some f) (hu : e.tid = u) (ht : f.tid = t) : HB (h₁ ++ h₂ ++ h₃) j (h₁.length + h₂.length + i) := by
  have hj := lt_of_getElem? he
  refine ⟨by omega, e, f, ?_, ?_, ?_⟩
  · rw [List.append_assoc, List.getElem?_append_left hj]; exact he
  · rw [List.getElem?_append_right (by simp)]
    simpa using hf
  · subst hu; subst ht
    have hev := ((ra_mono h1).2.2 e (List.mem_of_getElem? he)).2.2 e.tid
    obtain ⟨_, hp2, _⟩ := ra_mono h2
    obtain ⟨_, _, he3⟩ := ra_mono h3
    have h4 := (he3 f (List.mem_of_getElem? hf)).1.2 e.tid
    have hv : ∃ v, C₂.s.posts[C₁.s.posts.length]? = some v ∧ (C₁.s.view e.tid).Le v := by
      have hid : C₁.pc e.tid = .idle := by
        revert hpost
        cases C₁.pc e.tid with
        | run l k =>
          intro hpost
          simp only [raMach] at hpost
          split at hpost <;> simp_all [raAccess]
        | _ => simp [raMach]
      rw [hid] at hpost
      simp only [raMach, Option.some.injEq, Prod.mk.injEq] at hpost
      exact ⟨_, by rw [← hpost.1]; simp; rfl, View.le_tick _ _⟩
    obtain ⟨v, hv1, hv2⟩ := hv
    have h5 : v.Le (C₄.s.view f.tid) := by
      have hv3 := hp2 _ _ hv1
      have hid : C₃.pc f.tid = .idle := by
        revert hwait
        cases C₃.pc f.tid with
        | run l k =>
          intro hwait
          simp only [raMach] at hwait
          split at hwait <;> simp_all [raAccess]
        | _ => simp [raMach]
      rw [hid] at hwait
      simp only [raMach, hv3, Option.map_some, Option.some.injEq, Prod.mk.injEq] at hwait
      rw [← hwait.1]
      simp only [upd_self]
      exact (View.le_join_right _ _).trans (View.le_tick _ _)
    exact Nat.le_trans hev (Nat.le_trans (hv2.2 _) (Nat.le_trans (h5.2 _) h4))

end

end Verif.Stack.Code
