import Verif.Queue.WeakProps
import Verif.Queue.Props

/-!
# Queue under release/acquire memory: order, conservation, publication, relation to the sequentially consistent model
-/

namespace Verif.Queue
open Lin

variable {α : Type} {cfg : Cfg} {n : Nat} {h : History (Op α × View Loc) (Ret α × View Loc)} {C : WConf α}

/-! ### Order and conservation -/

/-- **C48 (FIFO).** The order of the calls can be chosen such that the values handed out, in order, are a prefix of the
values accepted, in order. -/
theorem queue_ra_fifo (hx : WFreshExec cfg true n h C) :
    ∃ L, HbLinearization (spec α cfg.fixed) (HB h) (bare h) L ∧ L.filterMap gotBy <+: L.filterMap putBy := by
  obtain ⟨L, hl⟩ := queue_ra_linearizable hx
  obtain ⟨σ, hr⟩ := hl.legal
  exact ⟨L, hl, run_prefix hr⟩

/-- **C48 (per-producer order).** Let `v` and `w` be different values, each offered by exactly one push call of
the history, and let the successful return of the push of `v` happen before the call of the push of `w`; in
particular, let one thread push `v` and then `w`. Then the return of the pop of `w` does not happen before the call
of the pop of `v`; in particular, if one thread pops both, it pops `v` first. -/
theorem queue_ra_order (hx : WFreshExec cfg true n h C) {v w : α} (hne : v ≠ w) {i j i' : Nat} {t' b'}
    (hv : ∀ k t b, (bare h)[k]? = some (.inv t (.push b v)) → k = i)
    (hw : ∀ k t b, (bare h)[k]? = some (.inv t (.push b w)) → k = i')
    (hpv : Returned (bare h) i j (.pushed true)) (hpv' : ∃ t b, (bare h)[i]? = some (.inv t (.push b v)))
    (hpw : (bare h)[i']? = some (.inv t' (.push b' w))) (hhb : HB h j i')
    {p pj q qj : Nat} (hqv : Returned (bare h) q qj (.popped (some v))) (hqw : Returned (bare h) p pj (.popped (some w))) :
    ¬ HB h pj q := by
  obtain ⟨L, hl⟩ := queue_ra_linearizable hx
  exact HbLinearization.queue_order hl hne hv hw hpv hpv' hpw hhb.1 hhb hqv hqw

/-- **C48 (no duplication, no invention).** The values handed out, counted with multiplicity, are among the values
offered to push calls. -/
theorem queue_ra_delivers_only_offered (hx : WFreshExec cfg true n h C) :
    (delivered (bare h)).Subperm (offered (bare h)) := by
  obtain ⟨L, hl⟩ := queue_ra_linearizable hx
  exact HbLinearization.queue_delivers hl

/-- **C48 (conservation).** When no call is in progress, the values accepted by pushes are exactly, as a
multiset, the values handed out plus the contents of the queue. -/
theorem queue_ra_conservation (hx : WFreshExec cfg true n h C) (hq : ∀ t, C.pc t = .idle) :
    ∃ vs, Holds C.s.s vs ∧ (delivered (bare h) ++ vs).Perm (accepted (bare h)) := by
  obtain ⟨g, gh, c, hi, hr⟩ := hx.inv
  obtain ⟨L, hl, hrun, hret⟩ := hr.linearization (hb := fun _ _ => False) (fun _ _ _ _ _ _ _ _ h => h.elim)
  rw [evs_evTr] at hl hret
  refine ⟨c.vals.drop c.nd, hi.si.holds, ?_⟩
  have hp : L.Perm (calls (bare h)) := by
    refine hl.perm_calls fun x hx => ?_
    rcases hret x hx with h1 | ⟨t, k, h1⟩
    · exact h1
    · have h2 := hi.loc t
      rw [hq t] at h2
      have h3 := h2.2
      rw [h1] at h3
      exact absurd h3 (by simp)
  have h1 := run_fifo hrun
  simp only [List.nil_append] at h1
  refine ((hp.filterMap _).symm.append_right _).trans ?_
  rw [h1]
  exact hp.filterMap _

/-! ### Executions of the sequentially consistent model are executions of this one -/

theorem withWord_self (s : St α) (l : Loc) : s.withWord (s.word l) l = s := by
  cases l <;> simp [St.withWord, St.word, St.headSnap, St.tailSnap, St.nextSnap, Heap.poolSnap, upd_eta]

theorem bareEv_stamp (v : View Loc) (e : Event (Op α) (Ret α)) : bareEv (stamp v e) = e := by cases e <;> rfl

theorem bare_snoc (h : History (Op α × View Loc) (Ret α × View Loc)) (e : Option _) :
    bare (h ++ e.toList) = bare h ++ (e.map bareEv).toList := by
  cases e with
  | none => simp [bare]
  | some e => cases e <;> simp [bare, bareEv]

/-- A failing compare-exchange leaves the state alone. -/
theorem tstep_cas_fail {t : Nat} {s s' : St α} {p p' : PC α} {ch e l o} (hc : casOf p = some (l, o))
    (hs : tstep cfg t s p ch = some (s', p', e)) (hf : ch = .base .go → (s.word l).v ≠ o.v) :
    s' = s ∧ e = none ∧ ∃ ch', failOf (s.word l) p = some ch' ∧ tstep cfg t s p ch' = some (s, p', none) := by
  cases p with
  | alloc b k a =>
    cases a <;> simp [casOf] at hc
    obtain ⟨rfl, rfl⟩ := hc
    simp only [St.word, Heap.poolSnap] at hf
    rcases ch with ch | _ | _ <;> try simp [tstep] at hs
    cases ch <;> simp [tstep, aStep, failOf] at hs ⊢
    · simp only [if_neg (hf rfl)] at hs
      simp at hs
      obtain ⟨rfl, rfl, rfl⟩ := hs
      simp
    · obtain ⟨rfl, rfl, rfl⟩ := hs
      simp
  | free k n d =>
    cases d <;> simp [casOf] at hc
    obtain ⟨rfl, rfl⟩ := hc
    simp only [St.word, Heap.poolSnap] at hf
    rcases ch with ch | _ | _ <;> try simp [tstep] at hs
    cases ch <;> simp [tstep, dStep, failOf] at hs ⊢
    · simp only [if_neg (hf rfl)] at hs
      simp at hs
      obtain ⟨rfl, rfl, rfl⟩ := hs
      simp
    · obtain ⟨rfl, rfl, rfl⟩ := hs
      simp
  | pCas n T N =>
    simp [casOf] at hc
    obtain ⟨m, hm, rfl, rfl⟩ := hc
    cases trans_of_tstep hs with
    | pCasErr h => simp [hm] at h
    | pCas h1 h2 => rw [hm] at h1; cases h1; exact absurd h2 (hf rfl)
    | pCasFail h => exact ⟨rfl, rfl, _, rfl, rfl⟩
  | swing k T y =>
    simp [casOf] at hc
    obtain ⟨rfl, rfl⟩ := hc
    cases trans_of_tstep hs with
    | swing h => exact absurd h (hf rfl)
    | swingFail h =>
      refine ⟨rfl, rfl, .base .go, ?_, hs⟩
      simp only [failOf]
      rw [if_neg (show ¬ (s.word .tail).v = T.v from h)]
  | cCas H y v =>
    simp [casOf] at hc
    obtain ⟨rfl, rfl⟩ := hc
    cases trans_of_tstep hs with
    | cCas h => exact absurd h (hf rfl)
    | cCasFail h => exact ⟨rfl, rfl, _, rfl, rfl⟩
  | _ => simp [casOf] at hc

/-- A load leaves the state alone. -/
theorem tstep_load {t : Nat} {s s' : St α} {p p' : PC α} {b e x} (hc : loadOf false p = some x)
    (hs : tstep cfg t s p (.base b) = some (s', p', e)) :
    s' = s ∧ e = none ∧ ∃ alt l ord, loadOf alt p = some (l, ord, .base b) := by
  cases p with
  | alloc b' k a =>
    cases a <;> simp [loadOf] at hc
    cases b <;> simp [tstep, aStep] at hs
    obtain ⟨rfl, rfl, rfl⟩ := hs
    exact ⟨rfl, rfl, false, _, _, rfl⟩
  | free k n d =>
    cases d <;> simp [loadOf] at hc
    cases b <;> simp [tstep, dStep] at hs
    obtain ⟨rfl, rfl, rfl⟩ := hs
    exact ⟨rfl, rfl, false, _, _, rfl⟩
  | pNext n T =>
    simp [loadOf] at hc
    obtain ⟨m, hm, _⟩ := hc
    cases trans_of_tstep hs with
    | pNextErr h => simp [hm] at h
    | pNext => exact ⟨rfl, rfl, false, _, _, by simp [loadOf, hm]; exact ⟨rfl, rfl⟩⟩
  | cNext n T =>
    simp [loadOf] at hc
    obtain ⟨m, hm, _⟩ := hc
    cases trans_of_tstep hs with
    | cNextErr h => simp [hm] at h
    | cNext => exact ⟨rfl, rfl, false, _, _, by simp [loadOf, hm]; exact ⟨rfl, rfl⟩⟩
  | eHead =>
    cases trans_of_tstep hs with
    | eHead => exact ⟨rfl, rfl, false, _, _, rfl⟩
    | eHead' => exact ⟨rfl, rfl, true, _, _, rfl⟩
  | nload | pTail | pCheck | cHead | cTail | cCheck | eTail | eHead2 =>
    cases trans_of_tstep hs <;> exact ⟨rfl, rfl, false, _, _, rfl⟩
  | _ => simp [loadOf] at hc

/-- **C48 (relation to C26).** Every execution of the sequentially consistent model whose reads return what is in
memory (no choice `torn` or `garbage`) is an execution of the release/acquire model: same events, same nodes, same
program counters. -/
theorem queue_ra_includes_sc {h : History (Op α) (Ret α)} {C : Conf α}
    (hx : MSteps (mach α cfg) (fun s p ch => okFresh cfg s p ch ∧ ∃ b, ch = .base b) (Conf.initial cfg n) h C) :
    ∃ h' C', WFreshExec cfg true n h' C' ∧ bare h' = h ∧ C'.s.s = C.s ∧ C'.pc = C.pc := by
  induction hx with
  | refl => exact ⟨[], WConf.initial cfg n, .refl _, rfl, rfl, rfl⟩
  | @step h C t ch s' p' e _ hs hok ih =>
    obtain ⟨h', C', hx', rfl, h2, h3⟩ := ih
    obtain ⟨g, gh, c, hi, _⟩ := hx'.inv
    obtain ⟨hok, b, rfl⟩ := hok
    have hok' : fresh cfg C'.s.s (C'.pc t) := by rw [h2, h3]; exact hok
    have hs' : tstep cfg t C'.s.s (C'.pc t) (.base b) = some (s', p', e) := by rw [h2, h3]; exact hs
    cases hc : casOf (C'.pc t) with
    | some lo =>
      obtain ⟨l, o⟩ := lo
      have hlo : ∀ alt, loadOf alt (C'.pc t) = none := by
        intro alt
        cases hp : C'.pc t <;> simp [hp, casOf, loadOf] at hc ⊢
        · split at hc <;> simp_all
        · split at hc <;> simp_all
      by_cases hgo : b = .go ∧ (C'.s.s.word l).v = o.v
      · obtain ⟨rfl, hw⟩ := hgo
        have hk : (touch (C'.pc t)).all (fun n => (C'.s.view t).knows (C'.s.acc n)) = true := by
          rw [List.all_eq_true]
          intro m hm
          refine hi.no_race hm fun H y x hp => hi.head_ver hp ?_ hok'
          rw [hp] at hc; simp [casOf] at hc; obtain ⟨rfl, rfl⟩ := hc; exact hw
        have he : e = none := by
          cases e with
          | none => rfl
          | some e =>
            rcases lawful cfg _ _ _ _ _ _ _ hs' with ⟨h4, _⟩ | ⟨r, h4, _⟩
            · have h4' : C'.pc t = .idle := h4
              simp [h4', casOf] at hc
            · have h4' : C'.pc t = .ret r := h4
              simp [h4', casOf] at hc
        subst he
        refine ⟨_, ⟨C'.s.rmw t l (touch (C'.pc t)) s', upd C'.pc t p'⟩, .step hx' (t := t) (ch := .step (.base .go)) (e := none) ?_ (by exact hok'), ?_, rfl, ?_⟩
        · simp only [wmach, wstep, hc, hw, if_true, hk, hs', Option.map_some]
        · simp
        · simp [h3]
      · obtain ⟨rfl, rfl, ch', h4, h5⟩ := tstep_cas_fail hc hs' fun hg hw => hgo ⟨by simpa using hg, hw⟩
        have h6 := (hi.vgt t).1 l
        refine ⟨_, ⟨C'.s.recv t l (C'.s.top l) .acquire, upd C'.pc t p'⟩, .step hx' (t := t) (ch := WChoice.read false (C'.s.top l)) (e := none)
          ?_ (fun hn => by rw [hc] at hn; cases hn), ?_, rfl, ?_⟩
        · simp only [wmach, wstep, hlo, hc, hi.last l, h4, h6, Nat.le_refl, and_self, if_true, withWord_self, h5, Option.map_some]
        · simp
        · simp [h3]
    | none =>
      cases hlo : loadOf false (C'.pc t) with
      | some lo =>
        obtain ⟨rfl, rfl, alt, l, ord, h4⟩ := tstep_load hlo hs'
        have h6 := (hi.vgt t).1 l
        refine ⟨_, ⟨C'.s.recv t l (C'.s.top l) ord, upd C'.pc t p'⟩, .step hx' (t := t) (ch := WChoice.read alt (C'.s.top l)) (e := none)
          ?_ (fun _ => hok'), ?_, rfl, ?_⟩
        · simp only [wmach, wstep, h4, hi.last l, h6, Nat.le_refl, and_self, if_true, withWord_self, hs', Option.map_some]
        · simp
        · simp [h3]
      | none =>
        have hk : (touch (C'.pc t)).all (fun n => (C'.s.view t).knows (C'.s.acc n)) = true := by
          rw [List.all_eq_true]
          intro m hm
          refine hi.no_race hm fun H y x hp => ?_
          rw [hp] at hc; simp [casOf] at hc
        cases hst : storeOf (C'.pc t) with
        | some nb =>
          obtain ⟨m, at'⟩ := nb
          have he : e = none := by
            cases e with
            | none => rfl
            | some e =>
              rcases lawful cfg _ _ _ _ _ _ _ hs' with ⟨h4, _⟩ | ⟨r, h4, _⟩
              · have h4' : C'.pc t = .idle := h4
                simp [h4', storeOf] at hst
              · have h4' : C'.pc t = .ret r := h4
                simp [h4', storeOf] at hst
          subst he
          refine ⟨_, ⟨C'.s.store t m at' (at' || true) (touch (C'.pc t)) s', upd C'.pc t p'⟩, .step hx' (t := t) (ch := .step (.base b)) (e := none) ?_ (by exact hok'), ?_, rfl, ?_⟩
          · simp only [wmach, wstep, hc, hlo, hk, if_true, hst, hs', Option.map_some]
          · simp
          · simp [h3]
        | none =>
          have hg : garbageOf C'.s t (C'.pc t) (.base b) = none := by
            cases C'.pc t <;> rfl
          by_cases ho : ordered C'.s t (C'.pc t) (.base b) = true
          · refine ⟨_, ⟨C'.s.plain t (touch (C'.pc t)) s', upd C'.pc t p'⟩, .step hx' (t := t) (ch := .step (.base b))
              (e := e.map (stamp ((C'.s.view t).tick t))) ?_ (by exact hok'), ?_, rfl, ?_⟩
            · simp only [wmach, wstep, hc, hlo, hk, if_true, hst, hg, ho, hs', Option.map_some]
            · rw [bare_snoc]
              cases e <;> simp [bareEv_stamp]
            · simp [h3]
          · -- an unordered copy of the payload that returns what is in memory
            cases hp : C'.pc t with
            | cData H y =>
              rw [hp] at ho hs'
              cases b with
              | go =>
                simp only [ordered] at ho
                cases trans_of_tstep hs' with
                | @cData _ _ v hd =>
                  refine ⟨_, ⟨C'.s.plain t [] C'.s.s, upd C'.pc t (.cCas H y v)⟩, .step hx' (t := t) (ch := .step (.garbage v))
                    (e := none) ?_ (by exact hok'), ?_, rfl, ?_⟩
                  · simp [wmach, wstep, hp, casOf, loadOf, touch, storeOf, garbageOf, ho]
                  · simp
                  · simp [h3]
                | cDataErr hd hv =>
                  exfalso
                  have hl := hi.loc t
                  rw [hp] at hl
                  obtain ⟨_, _, h5, h6, _⟩ := hl
                  rw [hi.headVer] at hv
                  obtain ⟨x, hx⟩ := hi.data_next (by rw [hv]; exact h5.1)
                  rw [hv, ← h6, hd] at hx
                  cases hx
              | _ => simp [ordered] at ho
            | _ => simp [ordered, hp] at ho

/-! ### What happens-before contains -/

/-- **C48 (happens-before: program order).** An event of a thread happens before the later events of the same thread. -/
theorem queue_ra_hb_program_order (hx : WExec cfg true n h C) {j i : Nat} (hji : j < i) {e f} (he : h[j]? = some e)
    (hf : h[i]? = some f) (ht : e.tid = f.tid) : HB h j i := by
  refine ⟨hji, e, f, he, hf, ?_⟩
  induction hx generalizing f with
  | refl => simp at he
  | @step h C t ch w' p' ev hx hs _ ih =>
    cases ev with
    | none => simp only [Option.toList_none, List.append_nil] at he hf; exact ih he hf ht
    | some ev =>
      simp only [Option.toList_some] at he hf
      have h1 := lt_of_getElem? hf
      simp only [List.length_append, List.length_singleton] at h1
      have he' : h[j]? = some e := by rwa [List.getElem?_append_left (by omega)] at he
      by_cases h2 : i < h.length
      · rw [List.getElem?_append_left h2] at hf
        exact ih he' hf ht
      · have h3 : i = h.length := by omega
        subst h3
        simp at hf
        subst hf
        obtain ⟨X, _, _, _, hle, _, _, _, hev⟩ := wtrans_view (wtrans_of_wstep hs)
        obtain ⟨h4, h5⟩ := hev _ rfl
        have h6 := (WExec.clk hx).ev e (List.mem_of_getElem? he')
        rw [h4]
        rw [show e.tid = t from ht.trans h5] at h6 ⊢
        exact Nat.le_trans (h6.1.2 t) (hle.2 t)

theorem wsteps_mono {C₀ C : WConf α} (hx : MSteps (wmach α cfg true) (fun _ _ _ => True) C₀ h C) :
    (∀ t, (C₀.s.view t).Le (C.s.view t)) ∧ (∀ (k : Nat) v, C₀.s.posts[k]? = some v → C.s.posts[k]? = some v) ∧
      ∀ e ∈ h, (C₀.s.view e.tid).Le (evView e) := by
  induction hx with
  | refl => exact ⟨fun t => .refl _, fun _ _ h => h, nofun⟩
  | @step h C t ch w' p' ev hx hs _ ih =>
    obtain ⟨h1, h2, h3⟩ := ih
    obtain ⟨X, _, _, hoth, hle, _, _, _, hev⟩ := wtrans_view (wtrans_of_wstep hs)
    have hmono : ∀ t', (C.s.view t').Le (w'.view t') := by
      intro t'
      by_cases h : t' = t
      · subst h; exact hle
      · rw [hoth t' h]; exact .refl _
    refine ⟨fun t' => (h1 t').trans (hmono t'), fun k v hv => ?_, fun e he => ?_⟩
    · have h4 := h2 k v hv
      cases wtrans_of_wstep hs with
      | post =>
        have h5 : k < C.s.posts.length := (List.getElem?_eq_some_iff.1 h4).1
        simp only
        rw [List.getElem?_append_left h5]; exact h4
      | _ => exact h4
    · rcases List.mem_append.1 he with he | he
      · exact h3 e he
      · cases ev with
        | none => simp at he
        | some ev =>
          simp at he
          subst he
          obtain ⟨h4, h5⟩ := hev _ rfl
          rw [h4, h5]
          exact (h1 t).trans hle

/-- **C48 (happens-before: client synchronisation).** If thread `u` posts after an event of its own, and thread
`t` waits for that post before one of its events, the former event happens before the latter. -/
theorem queue_ra_hb_post_wait {C₁ C₂ C₃ C₄ C₅ : WConf α} {h₁ h₂ h₃} {u t : Nat} (h1 : WExec cfg true n h₁ C₁)
    (hpost : wstep cfg true u C₁.s (C₁.pc u) .post = some (C₂.s, C₂.pc u, none))
    (h2 : MSteps (wmach α cfg true) (fun _ _ _ => True) C₂ h₂ C₃)
    (hwait : wstep cfg true t C₃.s (C₃.pc t) (.wait C₁.s.posts.length) = some (C₄.s, C₄.pc t, none))
    (h3 : MSteps (wmach α cfg true) (fun _ _ _ => True) C₄ h₃ C₅) {j i : Nat} {e f} (he : h₁[j]? = some e)
    (hf : h₃[i]? = some f) (hu : e.tid = u) (ht : f.tid = t) : HB (h₁ ++ h₂ ++ h₃) j (h₁.length + h₂.length + i) := by
  have hj := lt_of_getElem? he
  refine ⟨by omega, e, f, ?_, ?_, ?_⟩
  · rw [List.append_assoc, List.getElem?_append_left hj]; exact he
  · rw [List.getElem?_append_right (by simp)]
    simpa using hf
  · subst hu; subst ht
    have hev := (h1.clk.ev e (List.mem_of_getElem? he)).1.2 e.tid
    obtain ⟨_, hp2, _⟩ := wsteps_mono h2
    obtain ⟨_, _, he3⟩ := wsteps_mono h3
    have h4 := (he3 f (List.mem_of_getElem? hf)).2 e.tid
    have hpost' := wtrans_of_wstep hpost
    have hwait' := wtrans_of_wstep hwait
    have hv : ∃ v, C₂.s.posts[C₁.s.posts.length]? = some v ∧ (C₁.s.view e.tid).Le v := by
      generalize C₂.s = w, C₂.pc e.tid = p at hpost'
      cases hpost' with
      | post _ => exact ⟨_, by simp; rfl, View.le_tick _ _⟩
    obtain ⟨v, hv1, hv2⟩ := hv
    have h5 : v.Le (C₄.s.view f.tid) := by
      have hv3 := hp2 _ _ hv1
      generalize C₄.s = w, C₄.pc f.tid = p at hwait'
      cases hwait' with
      | wait _ hk =>
        rw [hv3] at hk; cases hk
        simp only [upd_self]
        exact (View.le_join_right _ _).trans (View.le_tick _ _)
    exact Nat.le_trans hev (Nat.le_trans (hv2.2 _) (Nat.le_trans (h5.2 _) h4))

/-! ### Publication -/

/-- Value handed to the caller with a result. -/
def retVal : Ret α → Option α
  | .popped v => v
  | _ => none

/-- Value that a thread has taken out and will hand to the caller. -/
def carried : PC α → Option α
  | .cDestroy _ v => some v
  | .free (.pop v) _ _ => some v
  | .ret r => retVal r
  | _ => none

/-- Value that a thread has still to put into a node. -/
def pushing : PC α → Option α
  | .alloc _ v _ | .constr _ v _ => some v
  | _ => none

theorem setData_data {h : Heap α} {n m : Nat} {o : Option α} {x} (hx : (h.setData n o).data m = some x) :
    h.data m = some x ∨ (m = n ∧ o = some x) := by
  simp only [Heap.setData, upd_apply] at hx
  split at hx
  · exact .inr ⟨by assumption, hx⟩
  · exact .inl hx

theorem malloc_data {h : Heap α} {m : Nat} {x} (hx : h.malloc.data m = some x) : h.data m = some x := by
  simp only [Heap.malloc, upd_apply] at hx
  split at hx
  · cases hx
  · exact hx

theorem aStep_data {b : Bool} {h h' : Heap α} {a ch r} (hs : aStep (Op := Op α) cfg b h a ch = some (h', r))
    {m : Nat} {x} (hx : h'.data m = some x) : h.data m = some x := by
  cases a <;> simp only [aStep] at hs <;> (repeat' split at hs) <;> simp at hs <;> obtain ⟨rfl, rfl⟩ := hs <;>
    first
      | exact hx
      | exact malloc_data hx

theorem dStep_data {h h' : Heap α} {n d ch r} (hs : dStep (Op := Op α) h n d ch = some (h', r)) :
    h'.data = h.data := by
  cases d <;> simp only [dStep] at hs <;> (repeat' split at hs) <;> simp at hs <;> obtain ⟨rfl, rfl⟩ := hs <;> rfl

/-- Where values come from, in one step. -/
theorem tstep_values {t : Nat} {s s' : St α} {p p' : PC α} {ch e} (hs : tstep cfg t s p ch = some (s', p', e)) :
    (∀ m x, s'.heap.data m = some x → s.heap.data m = some x ∨ (m ∈ touch p ∧ pushing p = some x)) ∧
    (∀ x, carried p' = some x → carried p = some x ∨ ∃ H y, p = .cCas H y x ∧ s.head = H.v) ∧
    (∀ x, pushing p' = some x → pushing p = some x ∨ ∃ o, e = some (.inv t o) ∧ offeredBy o = some x) := by
  cases trans_of_tstep hs with
  | @call o p h =>
    cases o with
    | push b v =>
      simp [start] at h; subst h
      exact ⟨fun m x h => .inl h, by simp [carried], fun x hx => .inr ⟨_, rfl, by simpa [pushing, offeredBy] using hx⟩⟩
    | reserve k =>
      simp only [start] at h; split at h <;> simp at h; subst h
      exact ⟨fun m x h => .inl h, by simp [carried], by simp [pushing]⟩
    | _ =>
      simp [start] at h; subst h
      exact ⟨fun m x h => .inl h, by simp [carried], by simp [pushing]⟩
  | allocMore hst | allocGot hst =>
    exact ⟨fun m x hx => .inl (aStep_data hst hx), by simp [carried], fun x hx => .inl (by simpa [pushing] using hx)⟩
  | allocNull hst | allocBad hst =>
    exact ⟨fun m x hx => .inl (aStep_data hst hx), by simp [carried, retVal], by simp [pushing]⟩
  | constr =>
    refine ⟨fun m x hx => ?_, by simp [carried], by simp [pushing]⟩
    rcases setData_data hx with h | ⟨rfl, h⟩
    · exact .inl h
    · cases h; right; simp [touch, pushing]
  | cDestroy =>
    refine ⟨fun m x hx => ?_, fun x hx => .inl (by simpa [carried] using hx), by simp [pushing]⟩
    rcases setData_data hx with h | ⟨_, h⟩
    · exact .inl h
    · cases h
  | @freeMore k n d ch h d' hst =>
    refine ⟨fun m x hx => .inl (by rw [← dStep_data hst]; exact hx), fun x hx => .inl ?_, by simp [pushing]⟩
    cases k <;> exact hx
  | @freeDone k n d ch h hst =>
    refine ⟨fun m x hx => .inl (by rw [← dStep_data hst]; exact hx), fun x hx => .inl ?_, fun x hx => ?_⟩
    · cases k <;> exact hx
    · cases k <;> simp [onFreed, pushing] at hx
  | @cCas H y v x hh =>
    exact ⟨fun m x h => .inl h, fun x hx => .inr ⟨H, y, by simp [carried] at hx; rw [hx], hh⟩, by simp [pushing]⟩
  | @pCheck n T N =>
    refine ⟨fun m x h => .inl h, fun x hx => ?_, fun x hx => ?_⟩
    · unfold pBranch at hx; repeat' split at hx
      all_goals simp [carried] at hx
    · unfold pBranch at hx; repeat' split at hx
      all_goals simp [pushing] at hx
  | @cCheck H T N =>
    refine ⟨fun m x h => .inl h, fun x hx => ?_, fun x hx => ?_⟩
    · unfold cBranch at hx; repeat' split at hx
      all_goals simp [carried, retVal] at hx
    · unfold cBranch at hx; repeat' split at hx
      all_goals simp [pushing] at hx
  | @swing k | @swingFail k =>
    exact ⟨fun m x h => .inl h, fun x hx => by cases k <;> simp [onSwung, carried, retVal] at hx,
      fun x hx => by cases k <;> simp [onSwung, pushing] at hx⟩
  | rsv => exact ⟨fun m x hx => .inl (malloc_data hx), by simp [carried], by simp [pushing]⟩
  | _ => exact ⟨fun m x hx => .inl hx, by simp [carried, retVal], by simp [pushing]⟩

theorem Rd.values {p p' : PC α} {l ord x} (hr : Rd p l ord x p') :
    (∀ y, carried p' = some y → carried p = some y) ∧ ∀ y, pushing p' = some y → pushing p = some y := by
  cases hr with
  | aload | acas => exact ⟨by simp [carried], fun y hy => hy⟩
  | @fload k | @fcas k => exact ⟨fun y hy => by cases k <;> exact hy, fun y hy => by cases k <;> exact hy⟩
  | pCheckT =>
    refine ⟨fun x hx => ?_, fun x hx => ?_⟩
    · unfold pBranch at hx; repeat' split at hx
      all_goals simp [carried] at hx
    · unfold pBranch at hx; repeat' split at hx
      all_goals simp [pushing] at hx
  | cCheckT =>
    refine ⟨fun x hx => ?_, fun x hx => ?_⟩
    · unfold cBranch at hx; repeat' split at hx
      all_goals simp [carried, retVal] at hx
    · unfold cBranch at hx; repeat' split at hx
      all_goals simp [pushing] at hx
  | @swing k =>
    exact ⟨fun x hx => by cases k <;> simp [onSwung, carried, retVal] at hx,
      fun x hx => by cases k <;> simp [onSwung, pushing] at hx⟩
  | _ => exact ⟨by simp [carried, retVal], by simp [pushing]⟩

theorem addNodes_data (h : Heap α) (k : Nat) (hd : ∀ m, h.data m = none) (m : Nat) : (h.addNodes k).data m = none := by
  induction k with
  | zero => exact hd m
  | succ k ih =>
    simp only [Heap.addNodes, Heap.deallocUnsafe, Heap.setNextPtr, Heap.malloc, upd_apply]
    split
    · rfl
    · exact ih

/-- Where the values in nodes and in the hands of threads come from. -/
structure Pub (h : History (Op α × View Loc) (Ret α × View Loc)) (C : WConf α) : Prop where
  data : ∀ m x, C.s.s.heap.data m = some x → ∃ (i u : Nat) (o : Op α) (w : View Loc) (k : Nat),
    h[i]? = some (.inv u (o, w)) ∧ offeredBy o = some x ∧ (u, k) ∈ C.s.acc m ∧ w.vc u ≤ k
  out : ∀ t x, carried (C.pc t) = some x → ∃ (i u : Nat) (o : Op α) (w : View Loc), h[i]? = some (.inv u (o, w)) ∧
    offeredBy o = some x ∧ w.vc u ≤ (C.s.view t).vc u
  inp : ∀ t x, pushing (C.pc t) = some x → ∃ (i : Nat) (o : Op α) (w : View Loc), h[i]? = some (.inv t (o, w)) ∧
    offeredBy o = some x ∧ w.vc t ≤ (C.s.view t).vc t

theorem acc_touched {w : WSt α} {t : Nat} {ns : List Nat} {s' : St α} {m : Nat} {x} (hx : x ∈ w.acc m) :
    x ∈ w.touched t ns s' m := by
  simp only [WSt.touched]
  split
  · exact List.mem_cons_of_mem _ hx
  · exact hx

theorem WFreshExec.pub (hx : WFreshExec cfg true n h C) : Pub h C := by
  induction hx with
  | refl =>
    refine ⟨fun m x hm => ?_, fun t x hx => by simp [WConf.initial, carried] at hx,
      fun t x hx => by simp [WConf.initial, pushing] at hx⟩
    obtain ⟨e1, e2, e3, e4, e5⟩ := ofHeap_initial (α := α) cfg n
    simp only [WConf.initial, Conf.initial, e5] at hm
    simp [Heap.initial, addNodes_data, Heap.empty] at hm
  | @step h C t ch w' p' e hx hs hok ih =>
    obtain ⟨X, _, _, hoth, hle, _, _, _, hev⟩ := wtrans_view (wtrans_of_wstep hs)
    have hmono : ∀ t' u, (C.s.view t').vc u ≤ (w'.view t').vc u := by
      intro t' u
      by_cases h : t' = t
      · subst h; exact hle.2 u
      · rw [hoth t' h]; exact Nat.le_refl _
    have hget : ∀ (i : Nat) f, h[i]? = some f → (h ++ e.toList)[i]? = some f := by
      intro i f hf
      rw [List.getElem?_append_left (lt_of_getElem? hf)]; exact hf
    have hacc : ∀ m, ∀ x ∈ C.s.acc m, x ∈ w'.acc m := by
      intro m x hx
      cases wtrans_of_wstep hs with
      | plain | racing | race | racingC | garb | rmw | store => exact acc_touched hx
      | _ => exact hx
    have hout : ∀ t' x, carried (C.pc t') = some x → ∃ (i u : Nat) (o : Op α) (w : View Loc),
        (h ++ e.toList)[i]? = some (.inv u (o, w)) ∧ offeredBy o = some x ∧ w.vc u ≤ (w'.view t').vc u := by
      intro t' x hx
      obtain ⟨i, u, o, w, h1, h2, h3⟩ := ih.out t' x hx
      exact ⟨i, u, o, w, hget _ _ h1, h2, Nat.le_trans h3 (hmono _ _)⟩
    have hinp : ∀ t' x, pushing (C.pc t') = some x → ∃ (i : Nat) (o : Op α) (w : View Loc),
        (h ++ e.toList)[i]? = some (.inv t' (o, w)) ∧ offeredBy o = some x ∧ w.vc t' ≤ (w'.view t').vc t' := by
      intro t' x hx
      obtain ⟨i, o, w, h1, h2, h3⟩ := ih.inp t' x hx
      exact ⟨i, o, w, hget _ _ h1, h2, Nat.le_trans h3 (hmono _ _)⟩
    -- it suffices to look at the new nodes and the new program counter
    have key : (∀ m x, w'.s.heap.data m = some x → C.s.s.heap.data m = some x ∨
          (pushing (C.pc t) = some x ∧ (t, (w'.view t).vc t) ∈ w'.acc m)) →
        (∀ x, carried p' = some x → carried (C.pc t) = some x ∨
          ∃ m, C.s.s.heap.data m = some x ∧ (C.s.view t).knows (C.s.acc m) = true) →
        (∀ x, pushing p' = some x → pushing (C.pc t) = some x ∨
          ∃ o, e = some (.inv t (o, w'.view t)) ∧ offeredBy o = some x) → Pub (h ++ e.toList) ⟨w', upd C.pc t p'⟩ := by
      intro k1 k2 k3
      refine ⟨fun m x hm => ?_, fun t' x hx => ?_, fun t' x hx => ?_⟩
      · rcases k1 m x hm with h1 | ⟨h1, h2⟩
        · obtain ⟨i, u, o, w, k, h1, h2, h3, h4⟩ := ih.data m x h1
          exact ⟨i, u, o, w, k, hget _ _ h1, h2, hacc _ _ h3, h4⟩
        · obtain ⟨i, o, w, h3, h4, h5⟩ := hinp t x h1
          exact ⟨i, t, o, w, _, h3, h4, h2, h5⟩
      · by_cases ht : t' = t
        · subst ht
          simp only [upd_self] at hx
          rcases k2 x hx with h1 | ⟨m, h1, h2⟩
          · exact hout t' x h1
          · obtain ⟨i, u, o, w, k, h3, h4, h5, h6⟩ := ih.data m x h1
            have := View.knows_iff.1 h2 _ h5
            exact ⟨i, u, o, w, hget _ _ h3, h4, Nat.le_trans h6 (Nat.le_trans this (hmono _ _))⟩
        · simp only [upd_ne _ _ _ ht] at hx; exact hout t' x hx
      · by_cases ht : t' = t
        · subst ht
          simp only [upd_self] at hx
          rcases k3 x hx with h1 | ⟨o, rfl, h1⟩
          · exact hinp t' x h1
          · exact ⟨h.length, o, w'.view t', by simp, h1, Nat.le_refl _⟩
        · simp only [upd_ne _ _ _ ht] at hx; exact hinp t' x hx
    have hnoev : ∀ {s s' : St α} {p'' e'} {ch'}, tstep cfg t s (C.pc t) ch' = some (s', p'', e') → C.pc t ≠ .idle →
        ∀ o, e' ≠ some (.inv t o) := by
      intro s s' p'' e' ch' hst hne o he
      subst he
      rcases lawful cfg _ _ _ _ _ _ _ hst with ⟨h1, _⟩ | ⟨r, _, _, h1⟩
      · exact hne h1
      · cases h1
    cases wtrans_of_wstep hs with
    | @rmw l o s' p' e' hc hw hk hst =>
      have hne : C.pc t ≠ .idle := by intro h; rw [h] at hc; simp [casOf] at hc
      obtain ⟨v1, v2, v3⟩ := tstep_values hst
      refine key (fun m x hm => ?_) (fun x hca => ?_) (fun x hx => .inl ?_)
      · rcases v1 m x hm with h1 | ⟨_, h1⟩
        · exact .inl h1
        · rcases v1 m x hm with h2 | ⟨h2, _⟩
          · exact .inl h2
          · exfalso
            cases hp : C.pc t with
            | alloc => simp [hp, touch] at h2
            | constr => simp [hp, casOf] at hc
            | _ => simp [hp, pushing] at h1
      · rcases v2 x hca with h1 | ⟨H, y, h1, h2⟩
        · exact .inl h1
        · obtain ⟨g, gh, c, hi, _⟩ := WFreshExec.inv hx
          have h3 := hi.loc t
          rw [h1] at h3
          exact .inr ⟨y, h3.2.2.2.2.2.2 (hi.head_ver h1 h2 hok), hk y (by simp [h1, touch])⟩
      · rcases v3 x hx with h1 | ⟨o, h1, _⟩
        · exact h1
        · exact absurd h1 (hnoev hst hne o)
    | @store ch n at' s' p' e' hst' hk hst =>
      have hne : C.pc t ≠ .idle := by intro h; rw [h] at hst'; simp [storeOf] at hst'
      obtain ⟨v1, v2, v3⟩ := tstep_values hst
      refine key (fun m x hm => .inl ?_) (fun x hx => .inl ?_) (fun x hx => .inl ?_)
      · rcases v1 m x hm with h1 | ⟨_, h1⟩
        · exact h1
        · cases hp : C.pc t with
          | alloc | constr => simp [hp, storeOf] at hst'
          | _ => simp [hp, pushing] at h1
      · rcases v2 x hx with h1 | ⟨H, y, h1, h2⟩
        · exact h1
        · simp [h1, storeOf] at hst'
      · rcases v3 x hx with h1 | ⟨o, h1, _⟩
        · exact h1
        · exact absurd h1 (hnoev hst hne o)
    | @plain ch s' p' e' hc hl hns hk ho hst =>
      obtain ⟨v1, v2, v3⟩ := tstep_values hst
      refine key (fun m x hm => ?_) (fun x hx => ?_) (fun x hx => ?_)
      · rcases v1 m x hm with h1 | ⟨h1, h2⟩
        · exact .inl h1
        · refine .inr ⟨h2, ?_⟩
          simp only [WSt.plain, upd_self, WSt.touched]
          rw [if_pos (.inl h1), View.tick_vc_self]
          exact List.mem_cons_self
      · rcases v2 x hx with h1 | ⟨H, y, h1, h2⟩
        · exact .inl h1
        · simp [h1, casOf] at hc
      · rcases v3 x hx with h1 | ⟨o, rfl, h1⟩
        · exact .inl h1
        · exact .inr ⟨o, by simp [stamp, WSt.plain], h1⟩
    | racing | racingC | garb =>
      exact key (fun m x hm => .inl hm) (by simp [carried]) (by simp [pushing])
    | read hr =>
      obtain ⟨h1, h2⟩ := hr.values
      exact key (fun m x hm => .inl hm) (fun x hx => .inl (h1 x hx)) (fun x hx => .inl (h2 x hx))
    | @torn k i x n f hr =>
      refine key (fun m x hm => .inl hm) (fun y hx => ?_) (fun y hx => ?_)
      all_goals
        cases hp : C.pc t <;> simp [hp, tornOf] at hr
        all_goals obtain ⟨_, _, _, rfl⟩ := hr; simp [carried, pushing] at hx
    | @race n k x hsp hk =>
      cases hp : C.pc t with
      | alloc b v a =>
        cases a <;> simp [hp, specOf] at hsp
        obtain ⟨_, _, _, rfl⟩ := hsp
        exact key (fun m x hm => .inl hm) (by simp [carried]) (fun y hx => .inl (by rw [hp]; exact hx))
      | _ => simp [hp, specOf] at hsp
    | @skip p' hq =>
      obtain ⟨hst, hc, -, -, htc, -⟩ := quiet_tstep hq t C.s.s
      obtain ⟨v1, v2, v3⟩ := tstep_values hst
      refine key (fun m x hm => .inl hm) (fun x hx => .inl ?_) (fun x hx => .inl ?_)
      · rcases v2 x hx with h1 | ⟨H, y, h1, h2⟩
        · exact h1
        · simp [h1, casOf] at hc
      · rcases v3 x hx with h1 | ⟨_, h1, _⟩
        · exact h1
        · cases h1
    | post | wait => exact key (fun m x hm => .inl hm) (by simp [carried]) (by simp [pushing])

/-- **C48 (publication).** Everything the pushing thread did before calling `push` is visible to the thread that receives the
value: whenever a pop returns with a value, some call that offered that value happens before that return. -/
theorem queue_ra_publication (hx : WFreshExec cfg true n h C) {j t : Nat} {r : Ret α} {v : View Loc} {x : α}
    (hj : h[j]? = some (.res t (r, v))) (hr : retVal r = some x) :
    ∃ (i u : Nat) (o : Op α) (w : View Loc), h[i]? = some (.inv u (o, w)) ∧ offeredBy o = some x ∧ HB h i j := by
  induction hx with
  | refl => simp at hj
  | @step h C t' ch w' p' e hx hs _ ih =>
    by_cases hlt : j < h.length
    · rw [List.getElem?_append_left hlt] at hj
      obtain ⟨i, u, o, w, h1, h2, h3, e', f, h4, h5, h6⟩ := ih hj
      have hi := lt_of_getElem? h1
      refine ⟨i, u, o, w, ?_, h2, h3, e', f, ?_, ?_, h6⟩
      · rw [List.getElem?_append_left hi]; exact h1
      · rw [List.getElem?_append_left hi]; exact h4
      · rw [List.getElem?_append_left hlt]; exact h5
    · have hj' := hj
      rw [List.getElem?_append_right (by omega)] at hj
      cases e with
      | none => simp at hj
      | some e =>
        have h0 : j = h.length := by
          have := lt_of_getElem? hj
          simp at this; omega
        subst h0
        simp at hj
        subst hj
        obtain ⟨X, _, _, _, hle, _, _, _, hev⟩ := wtrans_view (wtrans_of_wstep hs)
        obtain ⟨h1, h2⟩ := hev _ rfl
        have h2' : t = t' := h2
        subst h2'
        have h1' : v = w'.view t := h1
        have hpc : C.pc t = .ret r := by
          have hs' := wtrans_of_wstep hs
          generalize hoe : some (Event.res t (r, v)) = oe at hs'
          cases hs' with
          | @plain ch s' p' e' hc hl hns hk ho hst =>
            cases e' with
            | none => simp at hoe
            | some e' =>
              rcases lawful cfg _ _ _ _ _ _ _ hst with ⟨_, o, rfl⟩ | ⟨r', h3, _, rfl⟩
              · simp [stamp] at hoe
              · simp [stamp] at hoe; obtain ⟨rfl, _⟩ := hoe; exact h3
          | _ => cases hoe
        obtain ⟨i, u, o, w, h3, h4, h5⟩ := (WFreshExec.pub hx).out t x (by rw [hpc]; exact hr)
        have hi := lt_of_getElem? h3
        refine ⟨i, u, o, w, ?_, h4, hi, .inv u (o, w), _, ?_, hj', ?_⟩
        · rw [List.getElem?_append_left hi]; exact h3
        · rw [List.getElem?_append_left hi]; exact h3
        · show w.vc u ≤ v.vc u
          rw [h1']; exact Nat.le_trans h5 (hle.2 u)

end Verif.Queue
