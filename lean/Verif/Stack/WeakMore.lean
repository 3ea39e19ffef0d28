import Verif.Stack.WeakProps
import Verif.Stack.Props

/-!
# Stack under release/acquire memory: conservation, publication, relation to the sequentially consistent model
-/

namespace Verif.Stack
open Lin

variable {α : Type} {cfg : Cfg} {n : Nat} {h : History (Op α × View Loc) (Ret α × View Loc)} {C : WConf α}

/-! ### Conservation -/

/-- **C47 (no duplication, no invention).** The values handed out, counted with multiplicity, are among the values offered to push calls. -/
theorem stack_ra_delivers_only_offered (hx : WFreshExec cfg n h C) :
    (delivered (bare h)).Subperm (offered (bare h)) := by
  obtain ⟨L, hl⟩ := stack_ra_linearizable hx
  obtain ⟨σ, hrun⟩ := hl.legal
  exact HbLinearization.delivers_only_offered hl hrun

/-- **C47 (conservation).** When no call is in progress, the values accepted by pushes are exactly, as a
multiset, the values handed out plus the contents of the stack, if no functor passed to
`consume_all_atomic` throws. -/
theorem stack_ra_conservation (hx : WFreshExec cfg n h C) (hq : ∀ t, C.pc t = .idle)
    (hno : ∀ t rev k, Event.inv t (.consumeAll rev (some k)) ∉ bare h) :
    ∃ vs, Holds C.s.s vs ∧ (delivered (bare h) ++ vs).Perm (accepted (bare h)) := by
  obtain ⟨g, c, wc, hi, hr⟩ := hx.inv
  obtain ⟨L, hl, hrun, hret⟩ := hr.linearization (hb := fun _ _ => False) (fun _ _ _ _ _ _ _ _ h => h.elim)
  rw [evs_evTr] at hl hret
  refine ⟨c.st, hi.gi.si.holds, ?_⟩
  have hp : L.Perm (calls (bare h)) := by
    refine hl.perm_calls fun x hx => ?_
    rcases hret x hx with h1 | ⟨t, k, h1⟩
    · exact h1
    · have h2 := hi.gi.loc t
      rw [show (⟨C.s.s, C.pc⟩ : Conf α).pc t = C.pc t from rfl, hq t] at h2
      have h3 := hi.rel t
      rw [h2.2, h1] at h3
      exact h3.elim
  have h1 := Run.perm (S := spec α cfg.fixed) handedBy pushedBy (fun σ : List α => σ) (L := L)
    (fun σ i o r σ' hm hs => specStep_perm hs fun rev k he => ?_) hrun
  · rw [hi.cst] at h1
    simp only [spec, List.append_nil] at h1
    exact ((hp.flatMap_right _).symm.append_right _).trans (h1.trans (hp.flatMap_right _))
  · obtain ⟨t, ht⟩ := hl.invoked _ hm
    simp only [he] at ht
    exact hno t rev k (List.mem_of_getElem? ht)

/-! ### Executions of the sequentially consistent model are executions of this one -/

theorem withWord_self (s : St α) (l : Loc) : s.withWord (s.word l) l = s := by cases l <;> rfl

/-- A failing compare-exchange leaves the state alone and behaves like a spurious failure. -/
theorem tstep_cas_fail {t : Nat} {s s' : St α} {p p' : PC α} {ch e l o} (hc : casOf p = some (l, o))
    (hs : tstep cfg t s p ch = some (s', p', e)) (hf : ch = .go → (s.word l).v ≠ o.v) :
    s' = s ∧ e = none ∧ tstep cfg t s p .spur = some (s, p', none) := by
  cases p with
  | alloc b k a =>
    cases a <;> simp [casOf] at hc
    obtain ⟨rfl, rfl⟩ := hc
    simp only [St.word, Heap.poolSnap] at hf
    cases ch <;> simp [tstep, aStep] at hs ⊢
    · simp only [if_neg (hf rfl)] at hs
      simp at hs
      obtain ⟨rfl, rfl, rfl⟩ := hs
      simp
    · obtain ⟨rfl, rfl, rfl⟩ := hs
      simp
  | free k n d =>
    cases d <;> simp [casOf] at hc
    obtain ⟨rfl, rfl⟩ := hc
    simp only [St.word, Heap.poolSnap] at hf
    cases ch <;> simp [tstep, dStep] at hs ⊢
    · simp only [if_neg (hf rfl)] at hs
      simp at hs
      obtain ⟨rfl, rfl, rfl⟩ := hs
      simp
    · obtain ⟨rfl, rfl, rfl⟩ := hs
      simp
  | lcas | pcas | ccas =>
    simp [casOf] at hc
    obtain ⟨rfl, rfl⟩ := hc
    simp only [St.word, St.tosSnap] at hf
    cases ch <;> simp [tstep] at hs ⊢
    · simp only [if_neg (hf rfl)] at hs
      simp at hs
      obtain ⟨rfl, rfl, rfl⟩ := hs
      simp
    · obtain ⟨rfl, rfl, rfl⟩ := hs
      simp
  | _ => simp [casOf] at hc

theorem tstep_load {t : Nat} {s s' : St α} {p p' : PC α} {ch e l ord} (hc : loadOf p = some (l, ord))
    (hs : tstep cfg t s p ch = some (s', p', e)) : ch = .go ∧ s' = s ∧ e = none := by
  cases p with
  | alloc b k a =>
    cases a <;> simp [loadOf] at hc
    cases ch <;> simp [tstep, aStep] at hs
    obtain ⟨rfl, rfl, rfl⟩ := hs
    simp
  | free k n d =>
    cases d <;> simp [loadOf] at hc
    cases ch <;> simp [tstep, dStep] at hs
    obtain ⟨rfl, rfl, rfl⟩ := hs
    simp
  | lload | pload | cload | eload =>
    cases ch <;> simp [tstep] at hs
    obtain ⟨rfl, rfl, rfl⟩ := hs
    simp
  | _ => simp [loadOf] at hc

theorem bareEv_stamp (v : View Loc) (e : Event (Op α) (Ret α)) : bareEv (stamp v e) = e := by cases e <;> rfl

theorem bare_snoc (h : History (Op α × View Loc) (Ret α × View Loc)) (e : Option _) :
    bare (h ++ e.toList) = bare h ++ (e.map bareEv).toList := by
  cases e with
  | none => simp [bare]
  | some e => cases e <;> simp [bare, bareEv]

/-- **C47 (relation to C14).** Every execution of the sequentially consistent model is an execution of the
release/acquire model: same events, same nodes, same program counters. -/
theorem stack_ra_includes_sc {h : History (Op α) (Ret α)} {C : Conf α} (hx : FreshExec cfg n h C) :
    ∃ h' C', WFreshExec cfg n h' C' ∧ bare h' = h ∧ C'.s.s = C.s ∧ C'.pc = C.pc := by
  induction hx with
  | refl => exact ⟨[], WConf.initial n, .refl _, rfl, rfl, rfl⟩
  | @step h C t ch s' p' e _ hs hok ih =>
    obtain ⟨h', C', hx', rfl, h2, h3⟩ := ih
    obtain ⟨g, c, wc, hi, _⟩ := hx'.inv
    have hs' : tstep cfg t C'.s.s (C'.pc t) ch = some (s', p', e) := by rw [h2, h3]; exact hs
    have hread : ∀ l ord ch', readOf (C'.pc t) = some (l, ord, ch') →
        tstep cfg t C'.s.s (C'.pc t) ch' = some (C'.s.s, p', none) →
        wstep cfg t C'.s (C'.pc t) (.read (C'.s.top l)) = some (C'.s.recv t l (C'.s.top l) ord, p', none) := by
      intro l ord ch' hr ht
      have h4 := hi.mem.seen _ (.thread t) l
      simp only [wstep, hr, h4, Nat.le_refl, and_self, if_true, hi.mem.last l, withWord_self, ht, Option.map_some]
    cases hc : casOf (C'.pc t) with
    | some lo =>
      obtain ⟨l, o⟩ := lo
      have hlo : loadOf (C'.pc t) = none := by
        cases hp : C'.pc t <;> simp [hp, casOf, loadOf] at hc ⊢
        · split at hc <;> simp_all
        · split at hc <;> simp_all
      by_cases hgo : ch = .go ∧ (C'.s.s.word l).v = o.v
      · obtain ⟨rfl, hw⟩ := hgo
        obtain ⟨_, _, rfl⟩ := tstep_rmw hs' hc hw
        refine ⟨_, ⟨C'.s.rmw t l s', upd C'.pc t p'⟩, .step hx' (t := t) (ch := .step .go) (e := none) ?_ ?_, ?_, rfl, ?_⟩
        · simp [wmach, wstep, hc, hw, hs']
        · simp only [okWFresh]; rw [h2, h3]; exact hok
        · simp
        · simp [h3]
      · obtain ⟨rfl, rfl, h4⟩ := tstep_cas_fail hc hs' fun hg hw => hgo ⟨hg, hw⟩
        refine ⟨_, ⟨C'.s.recv t l (C'.s.top l) .acquire, upd C'.pc t p'⟩, .step hx' (t := t) (ch := WChoice.read (C'.s.top l)) (e := none)
          (show (wmach α cfg).step t C'.s (C'.pc t) _ = _ from hread l .acquire .spur (by simp [readOf, hlo, hc]) h4) trivial, ?_, rfl, ?_⟩
        · simp
        · simp [h3]
    | none =>
      cases hlo : loadOf (C'.pc t) with
      | some lo =>
        obtain ⟨l, ord⟩ := lo
        obtain ⟨rfl, rfl, rfl⟩ := tstep_load hlo hs'
        refine ⟨_, ⟨C'.s.recv t l (C'.s.top l) ord, upd C'.pc t p'⟩, .step hx' (t := t) (ch := WChoice.read (C'.s.top l)) (e := none)
          (show (wmach α cfg).step t C'.s (C'.pc t) _ = _ from hread l ord .go (by simp [readOf, hlo]) hs') trivial, ?_, rfl, ?_⟩
        · simp
        · simp [h3]
      | none =>
        have hk : (touch (C'.pc t)).all (fun n => (C'.s.view t).knows (C'.s.acc n)) = true := by
          rw [List.all_eq_true]
          intro m hm
          exact hi.mem.thr m t ((hi.gi.si.heap.hmem t m).2 ((hi.gi.loc t).touch_held hm))
        refine ⟨_, ⟨C'.s.plain t (touch (C'.pc t)) s', upd C'.pc t p'⟩, .step hx' (t := t) (ch := .step ch)
          (e := e.map (stamp ((C'.s.view t).tick t))) ?_ ?_, ?_, rfl, ?_⟩
        · simp only [wmach, wstep, hc, hlo, hk, if_true, hs', Option.map_some]
        · simp only [okWFresh]; rw [h2, h3]; exact hok
        · rw [bare_snoc]
          cases e <;> simp [bareEv_stamp]
        · simp [h3]

/-! ### What happens-before contains -/

/-- **C47 (happens-before: program order).** An event of a thread happens before the later events of the same thread. -/
theorem stack_ra_hb_program_order (hx : WExec cfg n h C) {j i : Nat} (hji : j < i) {e f} (he : h[j]? = some e)
    (hf : h[i]? = some f) (ht : e.tid = f.tid) : HB h j i := by
  refine ⟨hji, e, f, he, hf, ?_⟩
  induction hx generalizing f with
  | refl => simp at he
  | @step h C t ch w' p' ev hx hs _ ih =>
    cases ev with
    | none => simp only [Option.toList_none, List.append_nil] at he hf; exact ih he hf ht
    | some ev =>
      simp only [Option.toList_some] at he hf
      have h1 := lt_of_getElem? hf
      simp only [List.length_append, List.length_singleton] at h1
      have he' : h[j]? = some e := by rwa [List.getElem?_append_left (by omega)] at he
      by_cases h2 : i < h.length
      · rw [List.getElem?_append_left h2] at hf
        exact ih he' hf ht
      · have h3 : i = h.length := by omega
        subst h3
        simp at hf
        subst hf
        obtain ⟨X, _, _, _, hle, _, _, _, hev⟩ := wtrans_view (wtrans_of_wstep hs)
        obtain ⟨h4, h5⟩ := hev _ rfl
        have h6 := (WExec.clk hx).ev e (List.mem_of_getElem? he')
        rw [h4]
        rw [show e.tid = t from ht.trans h5] at h6 ⊢
        exact Nat.le_trans (h6.1.2 t) (hle.2 t)

theorem wsteps_mono {C₀ C : WConf α} (hx : MSteps (wmach α cfg) (fun _ _ _ => True) C₀ h C) :
    (∀ t, (C₀.s.view t).Le (C.s.view t)) ∧ (∀ (k : Nat) v, C₀.s.posts[k]? = some v → C.s.posts[k]? = some v) ∧
      ∀ e ∈ h, (C₀.s.view e.tid).Le (evView e) := by
  induction hx with
  | refl => exact ⟨fun t => .refl _, fun _ _ h => h, nofun⟩
  | @step h C t ch w' p' ev hx hs _ ih =>
    obtain ⟨h1, h2, h3⟩ := ih
    obtain ⟨X, _, _, hoth, hle, _, _, _, hev⟩ := wtrans_view (wtrans_of_wstep hs)
    have hmono : ∀ t', (C.s.view t').Le (w'.view t') := by
      intro t'
      by_cases h : t' = t
      · subst h; exact hle
      · rw [hoth t' h]; exact .refl _
    refine ⟨fun t' => (h1 t').trans (hmono t'), fun k v hv => ?_, fun e he => ?_⟩
    · have h4 := h2 k v hv
      cases wtrans_of_wstep hs with
      | post =>
        have h5 : k < C.s.posts.length := (List.getElem?_eq_some_iff.1 h4).1
        simp only
        rw [List.getElem?_append_left h5]; exact h4
      | _ => exact h4
    · rcases List.mem_append.1 he with he | he
      · exact h3 e he
      · cases ev with
        | none => simp at he
        | some ev =>
          simp at he
          subst he
          obtain ⟨h4, h5⟩ := hev _ rfl
          rw [h4, h5]
          exact (h1 t).trans hle

/-- **C47 (happens-before: client synchronisation).** If thread `u` posts after an event of its own, and thread
`t` waits for that post before one of its events, the former event happens before the latter. -/
theorem stack_ra_hb_post_wait {C₁ C₂ C₃ C₄ C₅ : WConf α} {h₁ h₂ h₃} {u t : Nat} (h1 : WExec cfg n h₁ C₁)
    (hpost : wstep cfg u C₁.s (C₁.pc u) .post = some (C₂.s, C₂.pc u, none))
    (h2 : MSteps (wmach α cfg) (fun _ _ _ => True) C₂ h₂ C₃)
    (hwait : wstep cfg t C₃.s (C₃.pc t) (.wait C₁.s.posts.length) = some (C₄.s, C₄.pc t, none))
    (h3 : MSteps (wmach α cfg) (fun _ _ _ => True) C₄ h₃ C₅) {j i : Nat} {e f} (he : h₁[j]? = some e)
    (hf : h₃[i]? = some f) (hu : e.tid = u) (ht : f.tid = t) : HB (h₁ ++ h₂ ++ h₃) j (h₁.length + h₂.length + i) := by
  have hj := lt_of_getElem? he
  refine ⟨by omega, e, f, ?_, ?_, ?_⟩
  · rw [List.append_assoc, List.getElem?_append_left hj]; exact he
  · rw [List.getElem?_append_right (by simp)]
    simpa using hf
  · subst hu; subst ht
    have hev := (h1.clk.ev e (List.mem_of_getElem? he)).1.2 e.tid
    obtain ⟨_, hp2, _⟩ := wsteps_mono h2
    obtain ⟨_, _, he3⟩ := wsteps_mono h3
    have h4 := (he3 f (List.mem_of_getElem? hf)).2 e.tid
    have hpost' := wtrans_of_wstep hpost
    have hwait' := wtrans_of_wstep hwait
    have hv : ∃ v, C₂.s.posts[C₁.s.posts.length]? = some v ∧ (C₁.s.view e.tid).Le v := by
      generalize C₂.s = w, C₂.pc e.tid = p at hpost'
      cases hpost' with
      | post _ => exact ⟨_, by simp; rfl, View.le_tick _ _⟩
    obtain ⟨v, hv1, hv2⟩ := hv
    have h5 : v.Le (C₄.s.view f.tid) := by
      have hv3 := hp2 _ _ hv1
      generalize C₄.s = w, C₄.pc f.tid = p at hwait'
      cases hwait' with
      | wait _ hk =>
        rw [hv3] at hk; cases hk
        simp only [upd_self]
        exact (View.le_join_right _ _).trans (View.le_tick _ _)
    exact Nat.le_trans hev (Nat.le_trans (hv2.2 _) (Nat.le_trans (h5.2 _) h4))

/-! ### Publication -/

/-- Values handed to the caller with a result. -/
def retVals : Ret α → List α
  | .popped (some v) => [v]
  | .took vs => vs
  | _ => []

/-- Values that a thread has taken out and will hand to the caller. -/
def carried : PC α → List α
  | .pdestroy _ v => [v]
  | .free (.pop v) _ _ => [v]
  | .free (.cons _ acc _) _ _ => acc
  | .capply _ _ acc | .cread _ _ acc | .cdestroy _ _ acc _ => acc
  | .lload _ _ r | .lset _ _ _ r | .lcas _ _ _ r | .ret r => retVals r
  | _ => []

/-- Values that a thread has still to put into nodes. -/
def pushing : PC α → List α
  | .alloc _ (.one v) _ | .constr _ (.one v) _ => [v]
  | .alloc _ (.range _ _ v rest) _ | .constr _ (.range _ _ v rest) _ => v :: rest
  | .rlink _ _ _ _ rest _ => rest
  | _ => []

theorem setData_data {h : Heap α} {n m : Nat} {o : Option α} {x} (hx : (h.setData n o).data m = some x) :
    h.data m = some x ∨ (m = n ∧ o = some x) := by
  simp only [Heap.setData, upd_apply] at hx
  split at hx
  · exact .inr ⟨by assumption, hx⟩
  · exact .inl hx

theorem malloc_data {h : Heap α} {m : Nat} {x} (hx : h.malloc.data m = some x) : h.data m = some x := by
  simp only [Heap.malloc, upd_apply] at hx
  split at hx
  · cases hx
  · exact hx

theorem aStep_data {b : Bool} {h h' : Heap α} {a ch r} (hs : aStep (Op := Op α) cfg b h a ch = some (h', r))
    {m : Nat} {x} (hx : h'.data m = some x) : h.data m = some x := by
  cases a <;> simp only [aStep] at hs <;> (repeat' split at hs) <;> simp at hs <;> obtain ⟨rfl, rfl⟩ := hs <;>
    first
      | exact hx
      | exact malloc_data hx

theorem dStep_data {h h' : Heap α} {n d ch r} (hs : dStep (Op := Op α) h n d ch = some (h', r)) :
    h'.data = h.data := by
  cases d <;> simp only [dStep] at hs <;> (repeat' split at hs) <;> simp at hs <;> obtain ⟨rfl, rfl⟩ := hs <;> rfl

/-- Where values come from, in one step. -/
theorem tstep_values {t : Nat} {s s' : St α} {p p' : PC α} {ch e} (hs : tstep cfg t s p ch = some (s', p', e)) :
    (∀ m x, s'.heap.data m = some x → s.heap.data m = some x ∨ (m ∈ touch p ∧ x ∈ pushing p)) ∧
    (∀ x, x ∈ carried p' → x ∈ carried p ∨ ∃ m ∈ touch p, s.heap.data m = some x) ∧
    (∀ x, x ∈ pushing p' → x ∈ pushing p ∨ ∃ o, e = some (.inv t o) ∧ x ∈ offeredBy o) := by
  cases trans_of_tstep hs with
  | @call o p h =>
    refine ⟨fun m x h => .inl h, ?_, fun x hx => .inr ⟨o, rfl, ?_⟩⟩
    · intro x hx
      cases o with
      | pushRange b vs =>
        simp only [start] at h
        split at h
        · simp at h
        · split at h <;> simp at h <;> subst h <;> simp [carried, retVals] at hx
      | reserve k => simp only [start] at h; split at h <;> simp at h; subst h; simp [carried, retVals] at hx
      | _ => simp [start] at h; subst h; simp [carried, retVals] at hx
    · cases o with
      | pushRange b vs =>
        simp only [start] at h
        split at h
        · simp at h
        · split at h <;> simp at h <;> subst h <;> simpa [pushing, offeredBy] using hx
      | reserve k => simp only [start] at h; split at h <;> simp at h; subst h; simp [pushing] at hx
      | push b v => simp [start] at h; subst h; simpa [pushing, offeredBy] using hx
      | _ => simp [start] at h; subst h; simp [pushing] at hx
  | @allocMore b k a ch h a' hst =>
    refine ⟨fun m x hx => .inl ?_, fun x hx => by simp [carried, retVals] at hx, fun x hx => .inl ?_⟩
    · exact aStep_data hst hx
    · cases k <;> simpa [pushing] using hx
  | @allocGot b k a ch h n hst =>
    refine ⟨fun m x hx => .inl ?_, fun x hx => by simp [carried, retVals] at hx, fun x hx => .inl ?_⟩
    · exact aStep_data hst hx
    · cases k <;> simpa [pushing] using hx
  | @allocNull b k a ch h hst =>
    refine ⟨fun m x hx => .inl ?_, fun x hx => ?_, fun x hx => ?_⟩
    · exact aStep_data hst hx
    · cases k with
      | one => simp [onNull, carried, retVals] at hx
      | range acc te v rest => cases te <;> simp [onNull, carried, retVals] at hx
    · cases k with
      | one => simp [onNull, pushing] at hx
      | range acc te v rest => cases te <;> simp [onNull, pushing] at hx
  | @allocBad b k a ch h hst =>
    refine ⟨fun m x hx => .inl ?_, fun x hx => ?_, fun x hx => ?_⟩
    · exact aStep_data hst hx
    · cases k with
      | one => simp [onThrow, carried, retVals] at hx
      | range acc te v rest => cases te <;> simp [onThrow, carried, retVals] at hx
    · cases k with
      | one => simp [onThrow, pushing] at hx
      | range acc te v rest => cases te <;> simp [onThrow, pushing] at hx
  | @constrThrow b k n =>
    refine ⟨fun m x hx => .inl hx, fun x hx => ?_, fun x hx => ?_⟩
    · cases k with
      | one => simp [onThrow, carried, retVals] at hx
      | range acc te v rest => cases te <;> simp [onThrow, carried, retVals] at hx
    · cases k with
      | one => simp [onThrow, pushing] at hx
      | range acc te v rest => cases te <;> simp [onThrow, pushing] at hx
  | constrOne =>
    refine ⟨fun m x hx => ?_, fun x hx => by simp [carried, retVals] at hx, fun x hx => by simp [pushing] at hx⟩
    rcases setData_data hx with h | ⟨rfl, h⟩
    · exact .inl h
    · cases h; right; simp [touch, pushing]
  | constrRange =>
    refine ⟨fun m x hx => ?_, fun x hx => by simp [carried, retVals] at hx, fun x hx => .inl (by simp [pushing] at hx ⊢; exact .inr hx)⟩
    rcases setData_data hx with h | ⟨rfl, h⟩
    · exact .inl h
    · cases h; right; simp [touch, pushing]
  | @rlinkFirst b acc v rest n =>
    refine ⟨fun m x hx => .inl hx, fun x hx => ?_, fun x hx => .inl ?_⟩
    · cases rest <;> simp [onLinked, carried, retVals] at hx
    · cases rest <;> simpa [onLinked, pushing] using hx
  | @rlinkNext b acc top e v rest n =>
    refine ⟨fun m x hx => .inl hx, fun x hx => ?_, fun x hx => .inl ?_⟩
    · cases rest <;> simp [onLinked, carried, retVals] at hx
    · cases rest <;> simpa [onLinked, pushing] using hx
  | @freeMore k n d ch h d' hst =>
    refine ⟨fun m x hx => .inl ?_, fun x hx => .inl ?_, fun x hx => by simp [pushing] at hx⟩
    · rw [← dStep_data hst]; exact hx
    · cases k <;> simpa [carried] using hx
  | @freeDone k n d ch h hst =>
    refine ⟨fun m x hx => .inl ?_, fun x hx => .inl ?_, fun x hx => ?_⟩
    · rw [← dStep_data hst]; exact hx
    · cases k with
      | pop | rsv => simpa [onFreed, carried, retVals] using hx
      | cons thr acc nx => cases nx <;> simpa [onFreed, carried, retVals] using hx
      | undo nx => cases nx <;> simp [onFreed, carried, retVals] at hx
    · cases k with
      | pop | rsv => simp [onFreed, pushing] at hx
      | cons thr acc nx => cases nx <;> simp [onFreed, pushing] at hx
      | undo nx => cases nx <;> simp [onFreed, pushing] at hx
  | @pdestroy n v =>
    refine ⟨fun m x hx => ?_, fun x hx => .inl (by simpa [carried] using hx), fun x hx => by simp [pushing] at hx⟩
    rcases setData_data hx with h | ⟨_, h⟩
    · exact .inl h
    · cases h
  | cdestroy =>
    refine ⟨fun m x hx => ?_, fun x hx => .inl (by simpa [carried] using hx), fun x hx => by simp [pushing] at hx⟩
    rcases setData_data hx with h | ⟨_, h⟩
    · exact .inl h
    · cases h
  | undoD =>
    refine ⟨fun m x hx => ?_, fun x hx => by simp [carried, retVals] at hx, fun x hx => by simp [pushing] at hx⟩
    rcases setData_data hx with h | ⟨_, h⟩
    · exact .inl h
    · cases h
  | @papplyThrow n v h | @papply n v h =>
    refine ⟨fun m x hx => .inl hx, fun x hx => .inr ⟨n, by simp [touch], ?_⟩, fun x hx => by simp [pushing] at hx⟩
    simp [carried, retVals] at hx; subst hx; exact h
  | capplyThrow h | capply h =>
    refine ⟨fun m x hx => .inl hx, fun x hx => ?_, fun x hx => by simp [pushing] at hx⟩
    simp [carried, retVals] at hx
    rcases hx with hx | rfl
    · exact .inl (by simpa [carried] using hx)
    · exact .inr ⟨_, by simp [touch], h⟩
  | cread => exact ⟨fun m x hx => .inl hx, fun x hx => .inl (by simpa [carried] using hx), fun x hx => by simp [pushing] at hx⟩
  | @ccasOk rev thr o n =>
    refine ⟨fun m x hx => .inl hx, fun x hx => ?_, fun x hx => ?_⟩
    · cases rev <;> simp [carried, retVals] at hx
    · cases rev <;> simp [pushing] at hx
  | lset | lload | lcasOk | lcasFail =>
    exact ⟨fun m x hx => .inl hx, fun x hx => .inl (by simpa [carried] using hx), fun x hx => by simp [pushing] at hx⟩
  | rsv => exact ⟨fun m x hx => .inl (malloc_data hx), fun x hx => by simp [carried] at hx, fun x hx => by simp [pushing] at hx⟩
  | _ => exact ⟨fun m x hx => .inl hx, fun x hx => by simp [carried, retVals] at hx, fun x hx => by simp [pushing] at hx⟩

/-- Where the values in nodes and in the hands of threads come from. -/
structure Pub (h : History (Op α × View Loc) (Ret α × View Loc)) (C : WConf α) : Prop where
  data : ∀ m x, C.s.s.heap.data m = some x → ∃ (i u : Nat) (o : Op α) (w : View Loc) (k : Nat), h[i]? = some (.inv u (o, w)) ∧ x ∈ offeredBy o ∧
    (u, k) ∈ C.s.acc m ∧ w.vc u ≤ k
  out : ∀ t x, x ∈ carried (C.pc t) → ∃ (i u : Nat) (o : Op α) (w : View Loc), h[i]? = some (.inv u (o, w)) ∧ x ∈ offeredBy o ∧
    w.vc u ≤ (C.s.view t).vc u
  inp : ∀ t x, x ∈ pushing (C.pc t) → ∃ (i : Nat) (o : Op α) (w : View Loc), h[i]? = some (.inv t (o, w)) ∧ x ∈ offeredBy o ∧
    w.vc t ≤ (C.s.view t).vc t

theorem touch_cas {p : PC α} {l o} (h : casOf p = some (l, o)) : touch p = [] := by
  cases p with
  | free k n d => cases d <;> simp [casOf] at h; rfl
  | _ => simp [casOf] at h <;> rfl

theorem touch_read {p : PC α} {x} (h : readOf p = some x) : touch p = [] := by
  cases p with
  | free k n d => cases d <;> simp [readOf, loadOf, casOf] at h <;> rfl
  | _ => simp [readOf, loadOf, casOf] at h <;> rfl

theorem withWord_data (s : St α) (x : Snap) (l : Loc) : (s.withWord x l).heap.data = s.heap.data := by cases l <;> rfl

theorem addNodes_data (h : Heap α) (k : Nat) (hd : ∀ m, h.data m = none) (m : Nat) : (h.addNodes k).data m = none := by
  induction k with
  | zero => exact hd m
  | succ k ih =>
    simp only [Heap.addNodes, Heap.deallocUnsafe, Heap.setNextPtr, Heap.malloc, upd_apply]
    split
    · rfl
    · exact ih

theorem WExec.pub (hx : WExec cfg n h C) : Pub h C := by
  induction hx with
  | refl =>
    refine ⟨fun m x hm => ?_, fun t x hx => by simp [WConf.initial, carried] at hx,
      fun t x hx => by simp [WConf.initial, pushing] at hx⟩
    simp [WConf.initial, Conf.initial, Heap.initial, addNodes_data, Heap.empty] at hm
  | @step h C t ch w' p' e hx hs _ ih =>
    obtain ⟨X, _, _, hoth, hle, _, _, _, hev⟩ := wtrans_view (wtrans_of_wstep hs)
    have hmono : ∀ t' u, (C.s.view t').vc u ≤ (w'.view t').vc u := by
      intro t' u
      by_cases h : t' = t
      · subst h; exact hle.2 u
      · rw [hoth t' h]; exact Nat.le_refl _
    have hget : ∀ (i : Nat) f, h[i]? = some f → (h ++ e.toList)[i]? = some f := by
      intro i f hf
      rw [List.getElem?_append_left (lt_of_getElem? hf)]; exact hf
    have hacc : ∀ m, ∀ x ∈ C.s.acc m, x ∈ w'.acc m := by
      intro m x hx
      cases wtrans_of_wstep hs with
      | plain | racing | race =>
        simp only [WSt.plain]
        split
        · exact List.mem_cons_of_mem _ hx
        · exact hx
      | _ => exact hx
    -- values in nodes that were there before
    have hdata : ∀ m x, C.s.s.heap.data m = some x → ∃ (i u : Nat) (o : Op α) (w : View Loc) (k : Nat),
        (h ++ e.toList)[i]? = some (.inv u (o, w)) ∧ x ∈ offeredBy o ∧ (u, k) ∈ w'.acc m ∧ w.vc u ≤ k := by
      intro m x hm
      obtain ⟨i, u, o, w, k, h1, h2, h3, h4⟩ := ih.data m x hm
      exact ⟨i, u, o, w, k, hget _ _ h1, h2, hacc _ _ h3, h4⟩
    have hout : ∀ t' x, x ∈ carried (C.pc t') → ∃ (i u : Nat) (o : Op α) (w : View Loc),
        (h ++ e.toList)[i]? = some (.inv u (o, w)) ∧ x ∈ offeredBy o ∧ w.vc u ≤ (w'.view t').vc u := by
      intro t' x hx
      obtain ⟨i, u, o, w, h1, h2, h3⟩ := ih.out t' x hx
      exact ⟨i, u, o, w, hget _ _ h1, h2, Nat.le_trans h3 (hmono _ _)⟩
    have hinp : ∀ t' x, x ∈ pushing (C.pc t') → ∃ (i : Nat) (o : Op α) (w : View Loc),
        (h ++ e.toList)[i]? = some (.inv t' (o, w)) ∧ x ∈ offeredBy o ∧ w.vc t' ≤ (w'.view t').vc t' := by
      intro t' x hx
      obtain ⟨i, o, w, h1, h2, h3⟩ := ih.inp t' x hx
      exact ⟨i, o, w, hget _ _ h1, h2, Nat.le_trans h3 (hmono _ _)⟩
    -- it suffices to look at the new nodes and the new program counter
    have key : (∀ m x, w'.s.heap.data m = some x → C.s.s.heap.data m = some x ∨
          (x ∈ pushing (C.pc t) ∧ (t, (w'.view t).vc t) ∈ w'.acc m)) →
        (∀ x, x ∈ carried p' → x ∈ carried (C.pc t) ∨
          ∃ m ∈ touch (C.pc t), C.s.s.heap.data m = some x ∧ (C.s.view t).knows (C.s.acc m) = true) →
        (∀ x, x ∈ pushing p' → x ∈ pushing (C.pc t) ∨
          ∃ o, e = some (.inv t (o, w'.view t)) ∧ x ∈ offeredBy o) → Pub (h ++ e.toList) ⟨w', upd C.pc t p'⟩ := by
      intro k1 k2 k3
      refine ⟨fun m x hm => ?_, fun t' x hx => ?_, fun t' x hx => ?_⟩
      · rcases k1 m x hm with h1 | ⟨h1, h2⟩
        · exact hdata m x h1
        · obtain ⟨i, o, w, h3, h4, h5⟩ := hinp t x h1
          exact ⟨i, t, o, w, _, h3, h4, h2, h5⟩
      · by_cases ht : t' = t
        · subst ht
          simp only [upd_self] at hx
          rcases k2 x hx with h1 | ⟨m, _, h1, h2⟩
          · exact hout t' x h1
          · obtain ⟨i, u, o, w, k, h3, h4, h5, h6⟩ := ih.data m x h1
            have := View.knows_iff.1 h2 _ h5
            exact ⟨i, u, o, w, hget _ _ h3, h4, Nat.le_trans h6 (Nat.le_trans this (hmono _ _))⟩
        · simp only [upd_ne _ _ _ ht] at hx; exact hout t' x hx
      · by_cases ht : t' = t
        · subst ht
          simp only [upd_self] at hx
          rcases k3 x hx with h1 | ⟨o, rfl, h1⟩
          · exact hinp t' x h1
          · exact ⟨h.length, o, w'.view t', by simp, h1, Nat.le_refl _⟩
        · simp only [upd_ne _ _ _ ht] at hx; exact hinp t' x hx
    cases wtrans_of_wstep hs with
    | @rmw l o s' p' e' hc hw hst =>
      obtain ⟨v1, v2, v3⟩ := tstep_values hst
      rw [touch_cas hc] at v1 v2
      refine key (fun m x hm => .inl ?_) (fun x hx => .inl ?_) (fun x hx => .inl ?_)
      · rcases v1 m x hm with h1 | h1
        · exact h1
        · simp at h1
      · rcases v2 x hx with h1 | h1
        · exact h1
        · simp at h1
      · obtain ⟨_, _, rfl⟩ := tstep_rmw hst hc hw
        rcases v3 x hx with h1 | ⟨_, h1, _⟩
        · exact h1
        · cases h1
    | @plain ch s' p' e' hc hl hk hst =>
      obtain ⟨v1, v2, v3⟩ := tstep_values hst
      refine key (fun m x hm => ?_) (fun x hx => ?_) (fun x hx => ?_)
      · rcases v1 m x hm with h1 | ⟨h1, h2⟩
        · exact .inl h1
        · refine .inr ⟨h2, ?_⟩
          simp only [WSt.plain, upd_self]
          rw [if_pos (.inl h1), View.tick_vc_self]
          exact List.mem_cons_self
      · rcases v2 x hx with h1 | ⟨m, h1, h2⟩
        · exact .inl h1
        · exact .inr ⟨m, h1, h2, hk m h1⟩
      · rcases v3 x hx with h1 | ⟨o, rfl, h1⟩
        · exact .inl h1
        · exact .inr ⟨o, by simp [stamp, WSt.plain], h1⟩
    | racing => exact key (fun m x hm => .inl hm) (fun x hx => by simp [carried] at hx) (fun x hx => by simp [pushing] at hx)
    | @read i l ord ch s' p' e' hr hlo hhi hst =>
      obtain ⟨v1, v2, v3⟩ := tstep_values hst
      rw [touch_read hr] at v2
      refine key (fun m x hm => .inl hm) (fun x hx => .inl ?_) (fun x hx => .inl ?_)
      · rcases v2 x hx with h1 | h1
        · exact h1
        · simp at h1
      · rcases v3 x hx with h1 | ⟨o, rfl, _⟩
        · exact h1
        · rcases lawful cfg _ _ _ _ _ _ _ hst with ⟨h1, _⟩ | ⟨r, _, _, h1⟩
          · have h1' : C.pc t = .idle := h1
            rw [h1'] at hr; simp [readOf, loadOf, casOf] at hr
          · cases h1
    | @race n k x hsp hk =>
      refine key (fun m x hm => .inl hm) (fun y hx => ?_) (fun y hx => .inl ?_)
      · cases hp : C.pc t with
        | alloc b kk a =>
          cases a <;> simp [hp, specOf] at hsp
          obtain ⟨_, _, _, rfl⟩ := hsp; simp [carried] at hx
        | ptest => simp [hp, specOf] at hsp; obtain ⟨_, _, _, rfl⟩ := hsp; simp [carried] at hx
        | _ => simp [hp, specOf] at hsp
      · cases hp : C.pc t with
        | alloc b kk a =>
          cases a <;> simp [hp, specOf] at hsp
          obtain ⟨_, _, _, rfl⟩ := hsp
          cases kk <;> simpa [pushing] using hx
        | ptest => simp [hp, specOf] at hsp; obtain ⟨_, _, _, rfl⟩ := hsp; simp [pushing] at hx
        | _ => simp [hp, specOf] at hsp
    | @skip p' hq =>
      obtain ⟨hst, -, -, htc, -⟩ := quiet_tstep hq t C.s.s
      obtain ⟨v1, v2, v3⟩ := tstep_values hst
      rw [htc] at v2
      refine key (fun m x hm => .inl hm) (fun x hx => .inl ?_) (fun x hx => .inl ?_)
      · rcases v2 x hx with h1 | h1
        · exact h1
        · simp at h1
      · rcases v3 x hx with h1 | ⟨_, h1, _⟩
        · exact h1
        · cases h1
    | post => exact key (fun m x hm => .inl hm) (fun x hx => by simp [carried] at hx) (fun x hx => by simp [pushing] at hx)
    | wait => exact key (fun m x hm => .inl hm) (fun x hx => by simp [carried] at hx) (fun x hx => by simp [pushing] at hx)

/-- **C47 (publication).** Everything the pushing thread did before calling `push` is visible to the thread that receives the
value: whenever a call returns with a value (a pop with its element, `consume_all_atomic` with its list), some call that
offered that value happens before that return. -/
theorem stack_ra_publication (hx : WExec cfg n h C) {j t : Nat} {r : Ret α} {v : View Loc} {x : α}
    (hj : h[j]? = some (.res t (r, v))) (hr : x ∈ retVals r) :
    ∃ (i u : Nat) (o : Op α) (w : View Loc), h[i]? = some (.inv u (o, w)) ∧ x ∈ offeredBy o ∧ HB h i j := by
  induction hx with
  | refl => simp at hj
  | @step h C t' ch w' p' e hx hs _ ih =>
    by_cases hlt : j < h.length
    · rw [List.getElem?_append_left hlt] at hj
      obtain ⟨i, u, o, w, h1, h2, h3, e', f, h4, h5, h6⟩ := ih hj
      have hi := lt_of_getElem? h1
      refine ⟨i, u, o, w, ?_, h2, h3, e', f, ?_, ?_, h6⟩
      · rw [List.getElem?_append_left hi]; exact h1
      · rw [List.getElem?_append_left hi]; exact h4
      · rw [List.getElem?_append_left hlt]; exact h5
    · have hj' := hj
      rw [List.getElem?_append_right (by omega)] at hj
      cases e with
      | none => simp at hj
      | some e =>
        have h0 : j = h.length := by
          have := lt_of_getElem? hj
          simp at this; omega
        subst h0
        simp at hj
        subst hj
        obtain ⟨X, _, _, _, hle, _, _, _, hev⟩ := wtrans_view (wtrans_of_wstep hs)
        obtain ⟨h1, h2⟩ := hev _ rfl
        have h2' : t = t' := h2
        subst h2'
        have h1' : v = w'.view t := h1
        have hpc : C.pc t = .ret r := by
          have hs' := wtrans_of_wstep hs
          generalize hoe : some (Event.res t (r, v)) = oe at hs'
          cases hs' with
          | @plain ch s' p' e' hc hl hk hst =>
            cases e' with
            | none => simp at hoe
            | some e' =>
              rcases lawful cfg _ _ _ _ _ _ _ hst with ⟨_, o, rfl⟩ | ⟨r', h3, _, rfl⟩
              · simp [stamp] at hoe
              · simp [stamp] at hoe; obtain ⟨rfl, _⟩ := hoe; exact h3
          | _ => cases hoe
        obtain ⟨i, u, o, w, h3, h4, h5⟩ := (WExec.pub hx).out t x (by rw [hpc]; exact hr)
        have hi := lt_of_getElem? h3
        refine ⟨i, u, o, w, ?_, h4, hi, .inv u (o, w), _, ?_, hj', ?_⟩
        · rw [List.getElem?_append_left hi]; exact h3
        · rw [List.getElem?_append_left hi]; exact h3
        · show w.vc u ≤ v.vc u
          rw [h1']; exact Nat.le_trans h5 (hle.2 u)

end Verif.Stack
