import Verif.Queue.WeakTextSim
import Verif.Queue.WeakMore
import Verif.Queue.TextProps

/-!
# The program text of the queue under the release/acquire memory model: theorems (C63)

No further code of /repo is modelled here.
-/

namespace Verif.Queue.Code
open Lin Text

variable {α : Type} {R : Rep} {n : Nat} {h : History (Op α × View Queue.Loc) (Ret α × View Queue.Loc)} {C : RaConf R α}

/-- **C63 (refinement).** Every execution of the program text under the release/acquire memory model has the history, with the same happens-before relation,
of an execution of the machine of C48. -/
theorem queue_ra_text_refines (hf : R.Faithful) (hn : n + 1 ≤ R.limit) (hx : RaTextExec R true n h C) : ∃ D : WConf α, WFreshExec R.cfg true n h D := by
  obtain ⟨D, hx, -⟩ := ra_simulated hf hn hx
  exact ⟨D, hx⟩

/-- **C63 (linearizability).** There is one total order of the calls that explains all results by the sequential queue and that never places a call
before one whose return happens before it. -/
theorem queue_ra_text_linearizable (hf : R.Faithful) (hn : n + 1 ≤ R.limit) (hx : RaTextExec R true n h C) :
    HbLinearizable (spec α R.fixed) (HB h) (bare h) := by
  obtain ⟨D, hx⟩ := queue_ra_text_refines hf hn hx
  exact queue_ra_linearizable hx

/-- **C63 (linearizability of synchronised clients).** -/
theorem queue_ra_text_linearizable_sync (hf : R.Faithful) (hn : n + 1 ≤ R.limit) (hx : RaTextExec R true n h C)
    (hsync : ∀ j i t r t' o, h[j]? = some (.res t r) → h[i]? = some (.inv t' o) → j < i → HB h j i) :
    Linearizable (spec α R.fixed) (bare h) := by
  obtain ⟨D, hx⟩ := queue_ra_text_refines hf hn hx
  exact queue_ra_linearizable_sync hx hsync

/-- **C63 (no undefined behaviour).** In particular, no access to a node is a data race, other than the speculative reads of the freelist, of the `next` words
and of the payload in `pop`. -/
theorem queue_ra_text_no_undefined_behaviour (hf : R.Faithful) (hn : n + 1 ≤ R.limit) (hx : RaTextExec R true n h C) (t : Nat) : C.pc t ≠ .err := by
  obtain ⟨D, hx, -, hp⟩ := ra_simulated hf hn hx
  intro he
  obtain ⟨q, _, h1, h2, -⟩ := hp t
  have h3 := queue_ra_no_error hx t
  rw [he] at h1
  cases (show q = .err from h1)
  generalize D.pc t = p at h2 h3
  cases h2
  exact h3 rfl

/-- The access is about to use the nodes `ns`, other than by an atomic access or a speculative read: the exchange of `head_` in `pop` uses the node it takes
if it is successful. -/
def Uses (w : RaSt R α) (t : Nat) (l : Loc R.K α) (a : LAcc R α) (ns : List Nat) : Prop :=
  match a.kind l with
  | .plain ms => ns = ms
  | .store _ _ ms => ns = ms
  | .casTaking _ won ms => ns = ms ∧ a.ok w.s l .go = true ∧ ∃ s' l' f, a.run t w.s l .go = some (s', l', f) ∧ won l' = true
  | _ => False

theorem agrees_of {D : WConf α} (hf : R.Faithful) {h'} (hx : WFreshExec R.cfg true n h' D) {w : RaSt R α} (hw : RaRel R D.s w) {t : Nat} {q : SPC R.K α}
    (hp : PCAt R D.s.s (D.pc t) q) {l : Loc R.K α} {a : LAcc R α} {k} (hat : At l (.stm (.acc a) :: k) q) : Agrees R w.s D.s.s (D.pc t) q l a (a.kind l) := by
  obtain ⟨g, gh, c, hi, -⟩ := hx.inv
  have hl := hi.loc t
  refine kind_agrees hf hw.st hat hp ?_ ?_
  · intro n T hpc; rw [hpc] at hl; rw [hl.2.1]; simp
  · intro n T hpc; rw [hpc] at hl; rw [hl.2.1.1]; simp

/-- **C63 (race freedom).** Whenever a thread is about to use nodes, other than by an atomic access or a speculative read, it knows all earlier such accesses
to them. -/
theorem queue_ra_text_race_free (hf : R.Faithful) (hn : n + 1 ≤ R.limit) (hx : RaTextExec R true n h C) {t : Nat} {l : Loc R.K α} {a : LAcc R α} {k : LRest R α}
    (ht : C.pc t = .run l (.stm (.acc a) :: k)) {ns : List Nat} (hk : Uses C.s t l a ns) {m : Nat} (hm : m ∈ ns) {u i : Nat}
    (ha : (u, i) ∈ C.s.acc m) : i ≤ (C.s.view t).vc u := by
  obtain ⟨D, hx, hw, hp⟩ := ra_simulated hf hn hx
  obtain ⟨q, _, h1, h2, -⟩ := hp t
  rw [ht] at h1
  obtain ⟨_, _, h1⟩ := h1
  have hat := Leads.stuck h1 rfl
  have h3 := agrees_of hf hx hw h2 hat
  rw [hw.view]
  rw [hw.acc] at ha
  unfold Uses at hk
  split at hk
  · rename_i hk'
    rw [hk'] at h3
    obtain ⟨h4, -, -, h5, -⟩ := h3
    subst hk h5
    exact queue_ra_race_free hx hm (by simp [h4]) ha
  · rename_i hk'
    rw [hk'] at h3
    obtain ⟨h4, -, -, h5⟩ := h3
    subst hk h5
    exact queue_ra_race_free hx hm (by simp [h4]) ha
  · rename_i hk'
    rw [hk'] at h3
    obtain ⟨h4, -, -, lc, o, -, h5, -, h6⟩ := h3
    obtain ⟨rfl, hok, s', l', f, hr, hwon⟩ := hk
    subst h4
    refine queue_ra_race_free hx hm ?_ ha
    rintro lc' o' h7
    rw [h5] at h7
    cases h7
    obtain ⟨q', h8, -⟩ := access t _ l a k q .go s' l' f hat hr
    exact ⟨(h6 _ _ _ _ _ hr hwon).2, fresh_of hf hw.st h2 (h8 hok)⟩
  · exact hk.elim

/-- **C63 (first in, first out).** -/
theorem queue_ra_text_fifo (hf : R.Faithful) (hn : n + 1 ≤ R.limit) (hx : RaTextExec R true n h C) :
    ∃ L, HbLinearization (spec α R.fixed) (HB h) (bare h) L ∧ L.filterMap gotBy <+: L.filterMap putBy := by
  obtain ⟨D, hx⟩ := queue_ra_text_refines hf hn hx
  exact queue_ra_fifo hx

/-- **C63 (per-producer order).** As `queue_ra_order`: if the push of `v` returned, with a return that happens before the call of the push of `w`, then the
pop of `w` does not return before the call of the pop of `v`, in the sense of happens-before. -/
theorem queue_ra_text_order (hf : R.Faithful) (hn : n + 1 ≤ R.limit) (hx : RaTextExec R true n h C) {v w : α} (hne : v ≠ w) {i j i' : Nat} {t' b'}
    (hv : ∀ k t b, (bare h)[k]? = some (.inv t (.push b v)) → k = i)
    (hw : ∀ k t b, (bare h)[k]? = some (.inv t (.push b w)) → k = i')
    (hpv : Returned (bare h) i j (.pushed true)) (hpv' : ∃ t b, (bare h)[i]? = some (.inv t (.push b v)))
    (hpw : (bare h)[i']? = some (.inv t' (.push b' w))) (hhb : HB h j i')
    {p pj q qj : Nat} (hqv : Returned (bare h) q qj (.popped (some v))) (hqw : Returned (bare h) p pj (.popped (some w))) :
    ¬ HB h pj q := by
  obtain ⟨D, hx⟩ := queue_ra_text_refines hf hn hx
  exact queue_ra_order hx hne hv hw hpv hpv' hpw hhb hqv hqw

/-- **C63 (no duplication, no invention).** -/
theorem queue_ra_text_delivers_only_offered (hf : R.Faithful) (hn : n + 1 ≤ R.limit) (hx : RaTextExec R true n h C) :
    (delivered (bare h)).Subperm (offered (bare h)) := by
  obtain ⟨D, hx⟩ := queue_ra_text_refines hf hn hx
  exact queue_ra_delivers_only_offered hx

/-- **C63 (conservation).** -/
theorem queue_ra_text_conservation (hf : R.Faithful) (hn : n + 1 ≤ R.limit) (hx : RaTextExec R true n h C) (hq : ∀ t, C.pc t = .idle) :
    ∃ vs, HoldsW R C.s.s vs ∧ (delivered (bare h) ++ vs).Perm (accepted (bare h)) := by
  obtain ⟨D, hx, hw, hp⟩ := ra_simulated hf hn hx
  have hq' : ∀ t, D.pc t = .idle := by
    intro t
    obtain ⟨q, _, h1, h2, -⟩ := hp t
    rw [hq t] at h1
    cases (show q = .idle from h1)
    generalize D.pc t = p at h2 ⊢
    cases h2
    rfl
  obtain ⟨vs, h1, h2⟩ := queue_ra_conservation hx hq'
  exact ⟨vs, hw.st.holds hf h1, h2⟩

/-- **C63 (publication).** Everything the pushing thread did before calling `push` is visible to the thread that receives the value: some call that offered
the value happens before the return that delivers it. -/
theorem queue_ra_text_publication (hf : R.Faithful) (hn : n + 1 ≤ R.limit) (hx : RaTextExec R true n h C) {j t : Nat} {r : Ret α} {v : View Queue.Loc} {x : α}
    (hj : h[j]? = some (.res t (r, v))) (hr : retVal r = some x) :
    ∃ (i u : Nat) (o : Op α) (w : View Queue.Loc), h[i]? = some (.inv u (o, w)) ∧ offeredBy o = some x ∧ HB h i j := by
  obtain ⟨D, hx⟩ := queue_ra_text_refines hf hn hx
  exact queue_ra_publication hx hj hr

/-- **C63 (happens-before: program order).** An event of a thread happens before the later events of the same thread. -/
theorem queue_ra_text_hb_program_order (hf : R.Faithful) (hn : n + 1 ≤ R.limit) (hx : RaTextExec R true n h C) {j i : Nat} (hji : j < i) {e f}
    (he : h[j]? = some e) (hi : h[i]? = some f) (ht : e.tid = f.tid) : HB h j i := by
  obtain ⟨D, hx⟩ := queue_ra_text_refines hf hn hx
  exact queue_ra_hb_program_order hx.exec hji he hi ht

/-! ### Sequentially consistent executions are included -/

theorem sWithWord_self (s : SSt R.K α) (lc : Queue.Loc) : withWord s (word s lc) lc = s := by
  cases lc <;> first | rfl | skip
  rename_i m
  have h1 : upd s.mem.next m (s.mem.next m) = s.mem.next := by funext x; rw [upd_apply]; split <;> simp [*]
  have h2 : upd s.mem.nver m (s.mem.nver m) = s.mem.nver := by funext x; rw [upd_apply]; split <;> simp [*]
  simp only [withWord, word, SSt.nextSnap, h1, h2]

/-- The choices for which a read returns what is in memory. -/
def Plain : TChoice (SChoice R.K (Op α) α) (Op α) → Prop
  | .act (.torn _) => False
  | .act (.garbage _) => False
  | _ => True

/-- What an access that reads an atomic object does. -/
def ReadRuns (t : Nat) (s s' : SSt R.K α) (l l' : Loc R.K α) (a : LAcc R α) (ch : SChoice R.K (Op α) α) (f : Flow) : Kind (Loc R.K α) (SChoice R.K (Op α) α) → Prop
  | .load _ _ => ch = .go ∧ s' = s
  | .first _ _ _ => (ch = .go ∨ ch = .spur) ∧ s' = s
  | .cas _ won => won l' = true ∨ (s' = s ∧ a.run t s l .spur = some (s, l', f))
  | .casTaking _ won _ => won l' = true ∨ (s' = s ∧ a.run t s l .spur = some (s, l', f))
  | .casStrong _ won => won l' = true ∨ (s' = s ∧ ch = .go ∧ won l' = false)
  | .copy _ race => ch = .throw ∨ ch = .go ∧ (f = .ub ∨ s' = s ∧ f = .next ∧ ∃ v, race (.garbage v) = some l')
  | _ => True

theorem kind_run {s : SSt R.K α} {l : Loc R.K α} {a : LAcc R α} {k q} (hat : At l (.stm (.acc a) :: k) q) {t ch s' l' f}
    (hr : a.run t s l ch = some (s', l', f)) (hch : Plain (R := R) (.act ch)) : ReadRuns t s s' l l' a ch f (a.kind l) := by
  have hcas' : ∀ {removes}, a = (port R α).casPool (O := Op α) removes → l'.fl.cas = true ∨ (s' = s ∧ a.run t s l .spur = some (s, l', f)) := by
    rintro removes rfl
    simp only [Port.casPool, Port.acc] at hr ⊢
    cases ch <;> simp only [Option.map_none, Option.map_some, reduceCtorEq] at hr
    · by_cases he : ((port R α).mem s).pool = ((port R α).fl l).old_pool.v
      · rw [if_pos he] at hr; cases hr; exact .inl rfl
      · rw [if_neg he] at hr; cases hr; exact .inr ⟨rfl, rfl⟩
    · cases hr; exact .inr ⟨rfl, rfl⟩
  have hload' : a = (port R α).loadPool (O := Op α) → ch = .go ∧ s' = s := by
    rintro rfl
    simp only [Port.loadPool, Port.acc] at hr
    cases ch <;> simp only [Option.map_none, Option.map_some, reduceCtorEq] at hr
    cases hr; exact ⟨rfl, rfl⟩
  have hloadT : ∀ {st ok}, a = loadTail (R := R) (α := α) st ok → ch = .go ∧ s' = s := by
    rintro st ok rfl
    simp only [loadTail] at hr
    cases ch <;> simp only [reduceCtorEq] at hr
    cases hr; exact ⟨rfl, rfl⟩
  have hloadH : ∀ {st ok}, a = loadHead (R := R) (α := α) st ok → ch = .go ∧ s' = s := by
    rintro st ok rfl
    simp only [loadHead] at hr
    cases ch <;> simp only [reduceCtorEq] at hr
    cases hr; exact ⟨rfl, rfl⟩
  have hloadN : ∀ {e r}, a = loadNext (R := R) (α := α) e r → ReadRuns t s s' l l' a ch f (a.kind l) := by
    rintro e r rfl
    simp only [loadNext] at hr ⊢
    cases he : e l with
    | none => exact trivial
    | some x =>
      simp only [he] at hr
      cases ch <;> simp only [reduceCtorEq] at hr
      · cases hr; exact ⟨rfl, rfl⟩
      · exact hch.elim
  generalize hK : Item.stm (.acc a) :: k = K at hat
  cases hat with
  | alloc hc ha =>
    subst hK
    cases ha with
    | load => exact hload' rfl
    | os => exact trivial
    | read ho hn =>
      rw [show (port R α).readLink.kind l = .spec _ _ by simp only [Port.readLink, Port.acc, ho, hn]; rfl]
      exact trivial
    | cas => exact hcas' rfl
  | free hc hd =>
    subst hK
    cases hd with
    | load => exact hload' rfl
    | set hn =>
      rw [show (port R α).setLink.kind l = .store _ false [_] by simp only [Port.setLink, Port.acc, hn]; rfl]
      exact trivial
    | cas => exact hcas' rfl
  | fin => simp at hK
  | constr hc hn => cases hK; exact trivial
  | nload hn =>
    cases hK
    simp only [ctorLoad, hn] at hr ⊢
    cases ch <;> simp only [reduceCtorEq] at hr
    cases hr; exact ⟨rfl, rfl⟩
  | nstore hn => cases hK; simp only [ctorStore, hn]; exact trivial
  | pTail | pCheck | cTail | eTail => cases hK; exact hloadT rfl
  | cHead | cCheck | eHead2 => cases hK; exact hloadH rfl
  | pNext | cNext => cases hK; exact hloadN rfl
  | @pCas _ _ _ _ x h1 h2 h3 h4 h5 h6 h7 =>
    cases hK
    simp only [casNext, h5] at hr ⊢
    cases ch <;> simp only [reduceCtorEq] at hr
    · split at hr <;> cases hr
      · exact .inl rfl
      · exact .inr ⟨rfl, by simp only [h5]⟩
    · cases hr; exact .inr ⟨rfl, by simp only [h5]⟩
  | swing h1 h2 h3 =>
    cases hK
    simp only [casTail] at hr ⊢
    cases ch <;> simp only [reduceCtorEq] at hr
    split at hr <;> cases hr
    · exact .inl rfl
    · exact .inr ⟨rfl, rfl, rfl⟩
  | cCas h1 h2 h3 h4 h5 h6 =>
    cases hK
    simp only [casHead] at hr ⊢
    cases ch <;> simp only [reduceCtorEq] at hr
    · split at hr <;> cases hr
      · exact .inl rfl
      · exact .inr ⟨rfl, rfl⟩
    · cases hr; exact .inr ⟨rfl, rfl⟩
  | cData h1 h2 h3 h4 =>
    cases hK
    simp only [copyPayload, h3] at hr ⊢
    cases ch <;> simp only [reduceCtorEq] at hr
    · refine .inr ⟨rfl, ?_⟩
      split at hr
      · cases hr; exact .inr ⟨rfl, rfl, _, rfl⟩
      · split at hr <;> cases hr
        exact .inl rfl
    · exact .inl rfl
    · exact hch.elim
  | cDestroy h1 h2 => cases hK; exact trivial
  | eHead =>
    cases hK
    simp only [evalFirst] at hr ⊢
    cases ch <;> simp only [reduceCtorEq] at hr <;> cases hr
    · exact ⟨.inl rfl, rfl⟩
    · exact ⟨.inr rfl, rfl⟩
  | rsv => cases hK; exact trivial

/-- The newest message of an object is its value, and threads have not seen newer ones. -/
theorem ra_newest {D : WConf α} {g gh c} (hi : WInv R.cfg D g gh c) {w : RaSt R α} (hw : RaRel R D.s w) (t : Nat) {lc : Queue.Loc}
    (hl : Exists D.s.s.heap.nalloc lc) : (w.msg lc (w.top lc)).val = word w.s lc ∧ (w.view t).seen lc ≤ w.top lc := by
  rw [hw.view, hw.top]
  refine ⟨?_, (hi.vgt t).1 lc⟩
  have h1 := hw.mval lc hl _ (Nat.le_refl _)
  rw [hi.last lc] at h1
  have h2 := word_rel hw.st hl
  generalize (w.msg lc (D.s.top lc)).val = x at h1
  generalize word w.s lc = y at h2
  cases x; cases y
  rw [SSnap.mk.injEq]
  exact ⟨h1.val.trans h2.val.symm, h1.ver.trans h2.ver.symm⟩

/-- **C63 (relation to C52).** Every sequentially consistent execution of the program text in which reads return what is in memory is one under the
release/acquire memory model. -/
theorem queue_ra_text_includes_sc (hf : R.Faithful) (hn : n + 1 ≤ R.limit) {h : History (Op α) (Ret α)} {C : TConf R α}
    (hx : MSteps (program R α).mach (fun s p ch => Program.ok (fun _ _ => True) s p ch ∧ Plain (R := R) ch) ⟨(SConf.initial R n).s, fun _ => .idle⟩ h C) :
    ∃ h' C', RaTextExec R true n h' C' ∧ bare h' = h ∧ C'.s.s = C.s ∧ C'.pc = C.pc := by
  induction hx with
  | refl => exact ⟨[], RaConf.initial R α n, .refl _, rfl, rfl, rfl⟩
  | @step h C t ch s' p' e hx hs hok ih =>
    obtain ⟨h', C', hx', rfl, h2, h3⟩ := ih
    obtain ⟨hok, hpl⟩ := hok
    have hne : p' ≠ .err := by
      have := queue_text_no_undefined_behaviour hf hn (.step (hx.mono fun _ _ _ h => h.1) hs hok) t
      simpa using this
    obtain ⟨D, hD, hw, hp⟩ := ra_simulated hf hn hx'
    obtain ⟨g, gh, c, hi, -⟩ := hD.inv
    have key : ∀ {ch' w' e'}, (raMach true (program R α)).step t C'.s (C'.pc t) ch' = some (w', p', e') → raOk C'.s (C'.pc t) ch' →
        w'.s = s' → e'.map bareEv = e →
        ∃ h'' C'', RaTextExec R true n h'' C'' ∧ bare h'' = bare h' ++ e.toList ∧ C''.s.s = s' ∧ C''.pc = upd C.pc t p' := by
      rintro ch' w' e' h4 h5 rfl rfl
      exact ⟨_, _, .step hx' h4 h5, bare_snoc _ _, rfl, by rw [h3]⟩
    have hp := hp t
    have hrf := fun l a k (h : C'.pc t = .run l (.stm (.acc a) :: k)) ns hk m hm u i =>
      queue_ra_text_race_free hf hn hx' (t := t) (l := l) (a := a) (k := k) h (ns := ns) hk (m := m) hm (u := u) (i := i)
    rw [← h2, ← h3] at hs hok
    generalize C'.pc t = tp at *
    simp only [Program.mach] at hs
    split at hs
    · rename_i o
      simp only [Option.map_eq_some_iff] at hs
      obtain ⟨x, h4, h5⟩ := hs
      cases h5
      refine key (ch' := .call o) (w' := C'.s.plain t [] C'.s.s) (e' := some _) (by simp only [raMach, h4]; rfl) trivial rfl rfl
    · cases hs
      exact key (ch' := .tau) rfl trivial rfl rfl
    · simp only [Option.map_eq_some_iff] at hs
      obtain ⟨x, h4, h5⟩ := hs
      cases h5
      rename_i l k _
      refine key (ch' := .tau) (w' := C'.s) (e' := none) ?_ ?_ rfl rfl
      · simp only [raMach, h4]; rfl
      · unfold raOk; split <;> simp_all
    · rename_i l a k ch
      have hs' : ∃ l' f, a.run t C'.s.s l ch = some (s', l', f) ∧ p' = after l' k f ∧ e = none := by
        split at hs <;> cases hs <;> exact ⟨_, _, by assumption, rfl, rfl⟩
      obtain ⟨l', f, h4, rfl, rfl⟩ := hs'
      obtain ⟨q, _, h5, h6, -⟩ := hp
      obtain ⟨_, _, h5⟩ := h5
      have h7 : At l (.stm (.acc a) :: k) q := Leads.stuck h5 rfl
      have hag := agrees_of hf hD hw h6 h7
      have h8 := kind_run h7 h4 hpl
      have hok : a.ok C'.s.s l ch = true := hok
      have key' : ∀ {ch' w'}, raAccess true t C'.s l a ch' = some (w', l', f) → raOk C'.s (.run l (.stm (.acc a) :: k)) ch' → ch' ≠ .tau →
          w'.s = s' →
          ∃ h'' C'', RaTextExec R true n h'' C'' ∧ bare h'' = bare h' ++ [] ∧ C''.s.s = s' ∧ C''.pc = upd C.pc t (after l' k f) := by
        intro ch' w' h10 h11 h12 h13
        refine key (ch' := ch') (w' := w') (e' := none) ?_ h11 h13 rfl
        cases ch' <;> first | (simp only [raMach, h10]; rfl) | exact absurd rfl h12
      have hall : ∀ {ns}, Uses C'.s t l a ns → (ns.all fun n => (C'.s.view t).knows (C'.s.acc n)) = true := by
        intro ns hu
        rw [List.all_eq_true]
        intro m hm
        exact View.knows_iff.2 fun y hy => hrf l a k rfl ns hu m hm y.1 y.2 hy
      have read : ∀ {x : Obj} {ord lc b}, locOf x = some lc → Exists D.s.s.heap.nalloc lc → a.run t C'.s.s l b = some (C'.s.s, l', f) →
          raRead t C'.s l a x ord b (C'.s.top lc) = some (C'.s.recv t lc (C'.s.top lc) ord, l', f) := by
        intro x ord lc b h10 h11 h12
        obtain ⟨h13, h14⟩ := ra_newest hi hw t h11
        simp only [raRead, h10, h13, sWithWord_self, h12, h14, Nat.le_refl, and_self, if_true]
        rfl
      have hread : ∀ {alt i}, (∀ x ord, a.kind l = .load x ord → ch = .go) → raOk C'.s (.run l (.stm (.acc a) :: k)) (.read alt i) := by
        intro alt i h
        simp only [raOk]
        split
        · rename_i x ord hk
          rw [h x ord hk] at hok
          exact hok
        · exact trivial
      rcases hk : a.kind l with ns | ⟨x, ord⟩ | ⟨x, won⟩ | ⟨m, race⟩ | ⟨x, y, ord⟩ | ⟨x, won⟩ | ⟨x, won, ns⟩ | ⟨m, b, ns⟩ | ⟨m, race⟩ <;>
        rw [hk] at hag h8
      · refine key' (ch' := .act ch) ?_ hok (by simp) (w' := C'.s.plain t ns s') rfl
        simp only [raAccess, raPlain, hk, hall (ns := ns) (by simp only [Uses, hk]), if_true, h4]
        rfl
      · obtain ⟨-, lc, h10, h11, -⟩ := hag
        obtain ⟨rfl, rfl⟩ := h8
        refine key' (ch' := .read false (C'.s.top lc)) ?_ (hread fun _ _ _ => rfl) (by simp) (w' := C'.s.recv t lc (C'.s.top lc) ord) rfl
        simp only [raAccess, hk, read h10 h11 h4]
      · obtain ⟨-, -, -, lc, o, h10, -, h11, -⟩ := hag
        rcases h8 with h13 | ⟨rfl, h13⟩
        · refine key' (ch' := .act ch) ?_ hok (by simp) (w' := C'.s.rmw t lc [] s') rfl
          simp only [raAccess, raCas, hk, h10, h4, h13, if_true, List.all_nil]
        · refine key' (ch' := .read false (C'.s.top lc)) ?_ (hread fun _ _ h => by cases hk.symm.trans h) (by simp)
            (w' := C'.s.recv t lc (C'.s.top lc) .acquire) rfl
          simp only [raAccess, hk, read h10 h11 h13]
      · refine key' (ch' := .act ch) ?_ hok (by simp) (w' := C'.s.plain t [] s') rfl
        simp only [raAccess, raPlain, hk, h4, List.all_nil, if_true]
        rfl
      · obtain ⟨-, rfl, rfl, rfl⟩ := hag
        obtain ⟨h8, rfl⟩ := h8
        rcases h8 with rfl | rfl
        · refine key' (ch' := .read false (C'.s.top .head)) ?_ (hread fun _ _ h => by cases hk.symm.trans h) (by simp)
            (w' := C'.s.recv t .head (C'.s.top .head) .acquire) rfl
          simp only [raAccess, hk, read (x := .head) (lc := .head) rfl (by intro m h; cases h) h4]
          rfl
        · refine key' (ch' := .read true (C'.s.top .tail)) ?_ (hread fun _ _ h => by cases hk.symm.trans h) (by simp)
            (w' := C'.s.recv t .tail (C'.s.top .tail) .acquire) rfl
          simp only [raAccess, hk, read (x := .tail) (lc := .tail) rfl (by intro m h; cases h) h4]
          rfl
      · obtain ⟨-, ⟨-, lc, o, h10, -, h11, -⟩, -⟩ := hag
        rcases h8 with h13 | ⟨rfl, rfl, h13⟩
        · refine key' (ch' := .act ch) ?_ hok (by simp) (w' := C'.s.rmw t lc [] s') rfl
          simp only [raAccess, raCas, hk, h10, h4, h13, if_true, List.all_nil]
        · refine key' (ch' := .read false (C'.s.top lc)) ?_ (hread fun _ _ h => by cases hk.symm.trans h) (by simp)
            (w' := C'.s.recv t lc (C'.s.top lc) .acquire) rfl
          simp [raAccess, hk, read h10 h11 h4, h13]
      · obtain ⟨-, -, -, lc, o, h10, -, h11, h12⟩ := hag
        rcases h8 with h13 | ⟨rfl, h13⟩
        · obtain ⟨rfl, -⟩ := h12 _ _ _ _ _ h4 h13
          refine key' (ch' := .act .go) ?_ hok (by simp) (w' := C'.s.rmw t lc ns s') rfl
          have hu : Uses C'.s t l a ns := by
            simp only [Uses, hk]
            exact ⟨trivial, hok, s', l', f, h4, h13⟩
          simp only [raAccess, raCas, hk, h10, h4, h13, if_true, hall hu]
        · refine key' (ch' := .read false (C'.s.top lc)) ?_ (hread fun _ _ h => by cases hk.symm.trans h) (by simp)
            (w' := C'.s.recv t lc (C'.s.top lc) .acquire) rfl
          simp only [raAccess, hk, read h10 h11 h13]
      · refine key' (ch' := .act ch) ?_ hok (by simp) (w' := C'.s.store t m b (b || true) ns s') rfl
        simp only [raAccess, raPlain, hk, hall (ns := ns) (by simp only [Uses, hk]), if_true, h4]
        rfl
      · rcases h8 with rfl | ⟨rfl, rfl | ⟨rfl, rfl, v, h13⟩⟩
        · refine key' (ch' := .act .throw) ?_ hok (by simp) (w' := C'.s.plain t [] s') rfl
          simp only [raAccess, raPlain, hk, h4, List.all_nil, if_true]
          rfl
        · exact absurd rfl hne
        · by_cases h14 : (C'.s.view t).knows (C'.s.acc m) = true
          · refine key' (ch' := .act .go) ?_ hok (by simp) (w' := C'.s.plain t [] C'.s.s) rfl
            simp only [raAccess, raPlain, hk, h4, h14, List.all_nil, if_true]
            rfl
          · refine key' (ch' := .race (.garbage v)) ?_ trivial (by simp) (w' := C'.s.plain t [] C'.s.s) rfl
            simp only [raAccess, hk, h13, h14]
            rfl
    · cases hs
      exact key (ch' := .tau) (e' := some _) rfl trivial rfl rfl
    · simp [program] at hs
    · cases hs

/-! ### Client synchronisation -/

section
variable {L : Type} {rel : Bool} {P : Program (SSt R.K α) L (SChoice R.K (Op α) α) (Op α) (Ret α)}

/-- `w'` differs from `w` in the view of `t` only, which has grown, and there are no new posts. -/
def OnlyView (t : Nat) (w w' : RaSt R α) : Prop :=
  (∀ u, u ≠ t → w'.view u = w.view u) ∧ (w.view t).Le (w'.view t) ∧ w'.posts = w.posts

theorem OnlyView.plain (t : Nat) (w : RaSt R α) (ns : List Nat) (s' : SSt R.K α) : OnlyView t w (w.plain t ns s') :=
  ⟨fun _ hu => upd_ne _ _ _ hu, by simpa [RaSt.plain] using View.le_tick _ _, rfl⟩

theorem OnlyView.recv (t : Nat) (w : RaSt R α) (lc : Queue.Loc) (i : Nat) (ord : Order) : OnlyView t w (w.recv t lc i ord) := by
  refine ⟨fun _ hu => upd_ne _ _ _ hu, ?_, rfl⟩
  simp only [RaSt.recv, upd_self]
  cases ord <;> simp only [RaSt.readView]
  case acquire => exact (View.le_join_left _ _).trans ((View.le_bump _ _ _).trans (View.le_tick _ _))
  all_goals exact (View.le_bump _ _ _).trans (View.le_tick _ _)

theorem OnlyView.rmw (t : Nat) (w : RaSt R α) (lc : Queue.Loc) (ns : List Nat) (s' : SSt R.K α) : OnlyView t w (w.rmw t lc ns s') := by
  refine ⟨fun _ hu => upd_ne _ _ _ hu, ?_, rfl⟩
  simp only [RaSt.rmw, upd_self]
  exact (View.le_join_left _ _).trans ((View.le_bump _ _ _).trans (View.le_tick _ _))

theorem OnlyView.store (t : Nat) (w : RaSt R α) (n : Nat) (at' rel : Bool) (ns : List Nat) (s' : SSt R.K α) :
    OnlyView t w (w.store t n at' rel ns s') := by
  refine ⟨fun _ hu => upd_ne _ _ _ hu, ?_, rfl⟩
  simp only [RaSt.store, upd_self]
  exact (View.le_bump _ _ _).trans (View.le_tick _ _)

theorem raAccess_view {t : Nat} {w : RaSt R α} {l : L} {a : Access (SSt R.K α) L (SChoice R.K (Op α) α)} {ch x}
    (h : raAccess rel t w l a ch = some x) : OnlyView t w x.1 := by
  have plain : ∀ {ns ch} {f : SSt R.K α → RaSt R α}, (∀ s', OnlyView t w (f s')) → raPlain t w l a ns ch f = some x → OnlyView t w x.1 := by
    intro ns ch f hf h
    simp only [raPlain] at h
    split at h
    · simp only [Option.map_eq_some_iff] at h
      obtain ⟨y, -, rfl⟩ := h
      exact hf _
    · cases h; exact .plain ..
  have cas : ∀ {y won ns ch}, raCas t w l a y won ns ch = some x → OnlyView t w x.1 := by
    intro y won ns ch h
    simp only [raCas] at h
    split at h
    · split at h
      · split at h
        · cases h; exact .rmw ..
        · cases h; exact .plain ..
      · cases h
    · cases h
  have read : ∀ {y ord ch i z}, raRead t w l a y ord ch i = some z → OnlyView t w z.1 := by
    intro y ord ch i z h
    simp only [raRead] at h
    split at h
    · cases h
    · split at h
      · simp only [Option.map_eq_some_iff] at h
        obtain ⟨y, -, rfl⟩ := h
        exact .recv ..
      · cases h
  cases ch with
  | act ch =>
    simp only [raAccess] at h
    split at h
    · exact plain (fun _ => .plain ..) h
    · exact plain (fun _ => .store ..) h
    · exact plain (fun _ => .plain ..) h
    · exact cas h
    · exact cas h
    · exact cas h
    · split at h
      · split at h
        · exact plain (fun _ => .plain ..) h
        · cases h
      · exact plain (fun _ => .plain ..) h
      · cases h
    · cases h
  | read alt i =>
    simp only [raAccess] at h
    split at h
    · exact read h
    · split at h <;> exact read h
    · exact read h
    · exact read h
    · simp only [Option.bind_eq_some_iff] at h
      obtain ⟨y, h1, h2⟩ := h
      split at h2
      · cases h2
      · cases h2; exact read h1
    · cases h
  | torn k i v =>
    simp only [raAccess] at h
    split at h
    · split at h
      · simp only [Option.map_eq_some_iff] at h
        obtain ⟨y, -, rfl⟩ := h
        exact .recv ..
      · cases h
    · cases h
  | race ch =>
    simp only [raAccess] at h
    split at h
    · split at h
      · cases h
      · simp only [Option.map_eq_some_iff] at h
        obtain ⟨y, -, rfl⟩ := h
        exact .plain ..
    · split at h
      · cases h
      · simp only [Option.map_eq_some_iff] at h
        obtain ⟨y, -, rfl⟩ := h
        exact .plain ..
    · cases h
  | _ => simp [raAccess] at h

/-- What a step does to the views. -/
theorem ra_view {t : Nat} {w w' : RaSt R α} {p p' ch ev} (h : (raMach rel P).step t w p ch = some (w', p', ev)) :
    (∀ u, u ≠ t → w'.view u = w.view u) ∧ (w.view t).Le (w'.view t) ∧ (∃ vs, w'.posts = w.posts ++ vs) ∧
      ∀ e, ev = some e → evView e = w'.view t ∧ e.tid = t := by
  have only : ∀ {w' : RaSt R α}, OnlyView t w w' → (∀ e, ev = some e → evView e = w'.view t ∧ e.tid = t) →
      (∀ u, u ≠ t → w'.view u = w.view u) ∧ (w.view t).Le (w'.view t) ∧ (∃ vs, w'.posts = w.posts ++ vs) ∧
      ∀ e, ev = some e → evView e = w'.view t ∧ e.tid = t := fun h h' => ⟨h.1, h.2.1, ⟨[], by rw [h.2.2]; simp⟩, h'⟩
  simp only [raMach] at h
  split at h
  · simp only [Option.map_eq_some_iff] at h
    obtain ⟨y, -, h⟩ := h
    cases h
    exact only (.plain ..) (by rintro e h; cases h; simp [evView, Event.tid, RaSt.plain])
  · cases h
    exact ⟨fun _ hu => upd_ne _ _ _ hu, by simpa using View.le_tick _ _, ⟨_, rfl⟩, by rintro e h; cases h⟩
  · simp only [Option.map_eq_some_iff] at h
    obtain ⟨y, -, h⟩ := h
    cases h
    exact ⟨fun _ hu => upd_ne _ _ _ hu, by simpa using (View.le_join_left _ _).trans (View.le_tick _ _), ⟨[], by simp⟩, by rintro e h; cases h⟩
  · cases h
    exact only ⟨fun _ _ => rfl, .refl _, rfl⟩ (by rintro e h; cases h)
  · simp only [Option.map_eq_some_iff] at h
    obtain ⟨y, -, h⟩ := h
    cases h
    exact only ⟨fun _ _ => rfl, .refl _, rfl⟩ (by rintro e h; cases h)
  · simp only [Option.map_eq_some_iff] at h
    obtain ⟨y, h1, h⟩ := h
    cases h
    exact only (raAccess_view h1) (by rintro e h; cases h)
  · cases h
    exact only (.plain ..) (by rintro e h; cases h; simp [evView, Event.tid, RaSt.plain])
  · cases h

theorem ra_mono {ok C₀ C} {h : History (Op α × View Queue.Loc) (Ret α × View Queue.Loc)} (hx : MSteps (raMach rel P) ok C₀ h C) :
    (∀ t, (C₀.s.view t).Le (C.s.view t)) ∧ (∀ (k : Nat) v, C₀.s.posts[k]? = some v → C.s.posts[k]? = some v) ∧
      ∀ e ∈ h, (C₀.s.view e.tid).Le (evView e) ∧ (evView e).Le (C.s.view e.tid) := by
  induction hx with
  | refl => exact ⟨fun t => .refl _, fun _ _ h => h, nofun⟩
  | @step h C t ch w' p' ev hx hs _ ih =>
    obtain ⟨h1, h2, h3⟩ := ih
    obtain ⟨hoth, hle, ⟨vs, hvs⟩, hev⟩ := ra_view hs
    have hmono : ∀ t', (C.s.view t').Le (w'.view t') := by
      intro t'
      by_cases h : t' = t
      · subst h; exact hle
      · rw [hoth t' h]; exact .refl _
    refine ⟨fun t' => (h1 t').trans (hmono t'), fun k v hv => ?_, fun e he => ?_⟩
    · have h4 := h2 k v hv
      simp only [hvs]
      rw [List.getElem?_append_left (List.getElem?_eq_some_iff.1 h4).1]
      exact h4
    · rcases List.mem_append.1 he with he | he
      · exact ⟨(h3 e he).1, (h3 e he).2.trans (hmono _)⟩
      · cases ev with
        | none => simp at he
        | some ev =>
          simp at he
          subst he
          obtain ⟨h4, h5⟩ := hev _ rfl
          rw [h4, h5]
          exact ⟨(h1 t).trans hle, .refl _⟩

/-- **C63 (happens-before: client synchronisation).** For any program: if thread `u` posts after an event of its own, and thread `t` waits for that post
before one of its events, the former event happens before the latter. -/
theorem queue_ra_text_hb_post_wait {ok} {C₀ C₁ C₂ C₃ C₄ C₅ : MConf (RaSt R α) (TPC (SSt R.K α) L (SChoice R.K (Op α) α) (Ret α))} {h₁ h₂ h₃} {u t : Nat}
    (h1 : MSteps (raMach rel P) ok C₀ h₁ C₁) (hpost : (raMach rel P).step u C₁.s (C₁.pc u) .post = some (C₂.s, C₂.pc u, none))
    (h2 : MSteps (raMach rel P) ok C₂ h₂ C₃)
    (hwait : (raMach rel P).step t C₃.s (C₃.pc t) (.wait C₁.s.posts.length) = some (C₄.s, C₄.pc t, none))
    (h3 : MSteps (raMach rel P) ok C₄ h₃ C₅) {j i : Nat} {e f} (he : h₁[j]? = some e)
    (hf : h₃[i]? = some f) (hu : e.tid = u) (ht : f.tid = t) : HB (h₁ ++ h₂ ++ h₃) j (h₁.length + h₂.length + i) := by
  have hj := lt_of_getElem? he
  refine ⟨by omega, e, f, ?_, ?_, ?_⟩
  · rw [List.append_assoc, List.getElem?_append_left hj]; exact he
  · rw [List.getElem?_append_right (by simp)]
    simpa using hf
  · subst hu; subst ht
    have hev := ((ra_mono h1).2.2 e (List.mem_of_getElem? he)).2.2 e.tid
    obtain ⟨_, hp2, _⟩ := ra_mono h2
    obtain ⟨_, _, he3⟩ := ra_mono h3
    have h4 := (he3 f (List.mem_of_getElem? hf)).1.2 e.tid
    have hv : ∃ v, C₂.s.posts[C₁.s.posts.length]? = some v ∧ (C₁.s.view e.tid).Le v := by
      have hid : C₁.pc e.tid = .idle := by
        revert hpost
        cases C₁.pc e.tid with
        | run l k =>
          intro hpost
          simp only [raMach] at hpost
          split at hpost <;> simp_all [raAccess]
        | _ => simp [raMach]
      rw [hid] at hpost
      simp only [raMach, Option.some.injEq, Prod.mk.injEq] at hpost
      exact ⟨_, by rw [← hpost.1]; simp; rfl, View.le_tick _ _⟩
    obtain ⟨v, hv1, hv2⟩ := hv
    have h5 : v.Le (C₄.s.view f.tid) := by
      have hv3 := hp2 _ _ hv1
      have hid : C₃.pc f.tid = .idle := by
        revert hwait
        cases C₃.pc f.tid with
        | run l k =>
          intro hwait
          simp only [raMach] at hwait
          split at hwait <;> simp_all [raAccess]
        | _ => simp [raMach]
      rw [hid] at hwait
      simp only [raMach, hv3, Option.map_some, Option.some.injEq, Prod.mk.injEq] at hwait
      rw [← hwait.1]
      simp only [upd_self]
      exact (View.le_join_right _ _).trans (View.le_tick _ _)
    exact Nat.le_trans hev (Nat.le_trans (hv2.2 _) (Nat.le_trans (h5.2 _) h4))

end

end Verif.Queue.Code
