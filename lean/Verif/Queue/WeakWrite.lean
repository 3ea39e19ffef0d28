import Verif.Queue.WeakRead

/-!
# Queue under release/acquire memory: preservation of the invariant by the other steps (proof)
-/

namespace Verif.Queue
open Lin

variable {α : Type} {cfg : Cfg}

def bareEv : Event (Op α × View Loc) (Ret α × View Loc) → Event (Op α) (Ret α)
  | .inv t o => .inv t o.1
  | .res t r => .res t r.1

/-- Event of the abstract queue with views. -/
def evTr (e : Event (Op α × View Loc) (Ret α × View Loc)) : Event (Op α) (Ret α) × (Nat × Nat) :=
  (bareEv e, ((evView e).seen .head, (evView e).seen .tail))

theorem word_malloc {C : WConf α} {g : G} {gh : Gh} {c : QC α} (hi : WInv cfg C g gh c) (l : Loc) :
    ({ C.s.s with heap := C.s.s.heap.malloc } : St α).word l = C.s.s.word l := by
  cases l with
  | next n =>
    simp only [St.word, St.nextSnap, Heap.malloc, upd_apply]
    split
    · subst_vars
      obtain ⟨_, _, h3, h4, _⟩ := hi.oi.raw _ ((hi.si.heap.raw _).2 (Nat.le_refl _))
      rw [h3, h4]
    · rfl
  | _ => rfl

section
variable {C : WConf α} {g : G} {gh : Gh} {c : QC α} (hi : WInv cfg C g gh c) {t : Nat}
include hi

theorem WInv.plainSt {s' : St α} {g' : G} {lk : Bool} {st : QStatus α} {ns p'} (si' : SI cfg s' g' (c.vals.drop c.nd))
    (hg : Guar lk t C.s.s g s' g') (hL : g'.L = g.L) (hword : ∀ l, s'.word l = C.s.s.word l) (hns : ∀ n ∈ ns, g.own n = .thr t)
    (hown : ∀ n, g'.own n = .thr t → g.own n = .thr t ∨ g.own n = .raw) (hfree : ∀ n, g'.own n = .free → g.own n = .free)
    (hspec : specSnap p' = none)
    (hloc : WLocal cfg (C.s.plain t ns s') g'.F gh ((C.s.view t).tick t) (g'.held t) st p') :
    WInv cfg ⟨C.s.plain t ns s', upd C.pc t p'⟩ g' gh { c with status := upd c.status t st } := by
  have hvt : (C.s.plain t ns s').view t = (C.s.view t).tick t := by simp [WSt.plain]
  exact hi.still (lk := lk) ns si' hg hL rfl rfl rfl hword (by rw [hvt]; exact hi.vg_tick t) (by rw [hvt]; exact View.le_tick _ _)
    (by rw [hvt]; simp [View.tick_vc_self]) (fun v h => .inl h) (fun t' ht => ⟨by simp [WSt.plain, upd_ne _ _ _ ht], rfl⟩) rfl hns hown hfree
    (by simp [hspec]) (by rw [hvt]; exact hloc)

theorem WInv.plainStay {s' : St α} {g' : G} {lk : Bool} {ns p'} (si' : SI cfg s' g' (c.vals.drop c.nd))
    (hg : Guar lk t C.s.s g s' g') (hL : g'.L = g.L) (hword : ∀ l, s'.word l = C.s.s.word l) (hns : ∀ n ∈ ns, g.own n = .thr t)
    (hown : ∀ n, g'.own n = .thr t → g.own n = .thr t ∨ g.own n = .raw) (hfree : ∀ n, g'.own n = .free → g.own n = .free)
    (hspec : specSnap p' = none)
    (hloc : WLocal cfg (C.s.plain t ns s') g'.F gh ((C.s.view t).tick t) (g'.held t) (c.status t) p') :
    Nxt cfg C c t (C.s.plain t ns s') p' none := by
  refine ⟨g', gh, c, .stay c, ?_⟩
  have := hi.plainSt si' hg hL hword hns hown hfree hspec hloc
  rw [upd_eta] at this; exact this

/-- Steps that change nothing but the program counter and the status. -/
theorem WInv.idleSt {st : QStatus α} {p'} (hspec : specSnap p' = none)
    (hloc : WLocal cfg (C.s.plain t [] C.s.s) g.F gh ((C.s.view t).tick t) (g.held t) st p') :
    WInv cfg ⟨C.s.plain t [] C.s.s, upd C.pc t p'⟩ g gh { c with status := upd c.status t st } :=
  hi.plainSt (lk := false) hi.si (.refl _ _ _ _) rfl (fun _ => rfl) (by simp) (fun _ h => .inl h) (fun _ h => h) hspec hloc

theorem WInv.idleStay {p'} (hspec : specSnap p' = none)
    (hloc : WLocal cfg (C.s.plain t [] C.s.s) g.F gh ((C.s.view t).tick t) (g.held t) (c.status t) p') :
    Nxt cfg C c t (C.s.plain t [] C.s.s) p' none :=
  hi.plainStay (lk := false) hi.si (.refl _ _ _ _) rfl (fun _ => rfl) (by simp) (fun _ h => .inl h) (fun _ h => h) hspec hloc

/-- The payload that a `pop` is about to take has been written before. -/
theorem WInv.knows_next {H : Snap} (h3 : H.ver < gh.K) (h4 : H.ver < (C.s.view t).seen .tail)
    (he : H.ver = C.s.top .head) : (C.s.view t).knows (C.s.acc (gh.X (H.ver + 1))) = true := by
  have h5 := hi.m1.E (hi.vgt t) (j := H.ver + 1) h4
  exact View.knows.mono (hi.oi.strA (H.ver + 1) (by omega) h3) ((hi.vgt t).2 _ (by simp) _ h5)

theorem WInv.data_next (h3 : C.s.top .head < gh.K) : ∃ x, C.s.s.heap.data (gh.X (C.s.top .head + 1)) = some x := by
  have hd := hi.si.data
  rw [hi.gl, show gh.K + 1 - C.s.top .head = (gh.K - C.s.top .head - 1) + 1 + 1 by omega, List.range'_succ, List.range'_succ] at hd
  simp only [List.map_cons, List.tail_cons] at hd
  cases hσ : c.vals.drop c.nd with
  | nil => rw [hσ] at hd; simp at hd
  | cons x σ => rw [hσ] at hd; simp only [List.map_cons, List.cons.injEq] at hd; exact ⟨x, hd.1⟩

/-- Nodes accessed by a step are known to its thread. -/
theorem WInv.no_race {n : Nat} (hn : n ∈ touch (C.pc t)) (hc : ∀ H y x, C.pc t = .cCas H y x → H.ver = C.s.top .head) :
    (C.s.view t).knows (C.s.acc n) = true := by
  have hl := hi.loc t
  have hthr : ∀ m, g.held t = [m] → (C.s.view t).knows (C.s.acc m) = true := fun m hm =>
    (hi.oi.thr m t ((hi.si.heap.hmem t m).2 (by simp [hm]))).1
  generalize hp : C.pc t = p at hn hl hc
  cases p with
  | constr b v m => simp [touch] at hn; subst hn; exact hthr _ hl.1
  | cCas H y x =>
    simp [touch] at hn; subst hn
    obtain ⟨_, h4, h5, h6, h7, _⟩ := hl
    rw [h6]; exact hi.knows_next h5.1 h7 (hc _ _ _ rfl)
  | cDestroy m v => simp [touch] at hn; subst hn; exact hthr _ hl.1
  | free k m d => cases d <;> simp [touch] at hn; subst hn; exact hthr _ hl.1
  | _ => simp [touch] at hn

theorem WInv.garb {H y v} (hp : C.pc t = .cData H y) (hb : ¬ (C.s.view t).knows (C.s.acc y) = true ∨ C.s.s.heap.data y = none) :
    Nxt cfg C c t (C.s.plain t [] C.s.s) (.cCas H y v) none := by
  have hl := hi.loc t
  rw [hp] at hl
  obtain ⟨h1, h2, h3, h4, h5, h6⟩ := hl
  have hle := View.le_tick (C.s.view t) t
  refine hi.idleStay rfl ⟨h1, h2.mono hle, h3.mono hle, h4, Nat.lt_of_lt_of_le h5 (hle.1 _), h6.mono hle, fun he => ?_⟩
  change H.ver = C.s.top .head at he
  exfalso
  rcases hb with hb | hb
  · rw [h4] at hb; exact hb (hi.knows_next h3.1 h5 he)
  · obtain ⟨x, hx⟩ := hi.data_next (by rw [← he]; exact h3.1)
    rw [h4, he, hx] at hb; simp at hb

theorem WInv.plainC {ch s' p' e} (h1 : casOf (C.pc t) = none) (h2 : loadOf false (C.pc t) = none) (h3 : storeOf (C.pc t) = none)
    (hs : tstep cfg t C.s.s (C.pc t) ch = some (s', p', e)) (ho : ordered C.s t (C.pc t) ch = true) :
    Nxt cfg C c t (C.s.plain t (touch (C.pc t)) s') p' ((e.map (stamp ((C.s.view t).tick t))).map evTr) := by
  have hl := hi.loc t
  have hle := View.le_tick (C.s.view t) t
  have hV := hi.vgt t
  have hVt := hV.1 .tail
  have hVh := hV.1 .head
  have htK := hi.m1.tK
  generalize hp : C.pc t = p at h1 h2 h3 hs ho hl
  cases p with
  | idle =>
    obtain ⟨hh, hst⟩ := hl
    cases ch with
    | base ch =>
      cases ch with
      | call o =>
        have hb1 : (C.s.view t).seen .head ≤ c.nd := by rw [hi.cnd]; exact hVh
        have hb2 : (C.s.view t).seen .tail ≤ c.vals.length := by rw [hi.cK]; omega
        simp only [tstep, Option.map_eq_some_iff, Prod.mk.injEq] at hs
        obtain ⟨p'', h4, rfl, rfl, rfl⟩ := hs
        refine ⟨g, gh, _, .inv (b := ((C.s.view t).seen .head, (C.s.view t).seen .tail)) hst hb1 hb2, ?_⟩
        have hpq : PendQ ((C.s.view t).tick t) (.pend o ((C.s.view t).seen .head, (C.s.view t).seen .tail)) o :=
          ⟨_, rfl, hle.1 _, hle.1 _⟩
        cases o with
        | push b v => simp [start] at h4; subst h4; exact hi.idleSt rfl ⟨hh, hpq, trivial⟩
        | pop => simp [start] at h4; subst h4; exact hi.idleSt rfl ⟨hh, hpq⟩
        | empty => simp [start] at h4; subst h4; exact hi.idleSt rfl ⟨hh, hpq⟩
        | reserve k => simp [start] at h4; obtain ⟨_, rfl⟩ := h4; exact hi.idleSt rfl ⟨hh, k, hpq⟩
      | _ => simp [tstep] at hs
    | _ => simp [tstep] at hs
  | alloc b v a =>
    obtain ⟨hh, ⟨b', hst, hb1, hb2⟩, hal⟩ := hl
    cases a with
    | load => simp [loadOf] at h2
    | cas o nx => simp [casOf] at h1
    | test o =>
      cases ch with
      | base ch =>
        have hneu : ∀ r, (∀ σ, specStep cfg.fixed σ (.push b v) r σ) → Nxt cfg C c t (C.s.plain t [] C.s.s) (.ret r) none := by
          intro r hr
          exact ⟨g, gh, _, .neu hst hr, hi.idleSt rfl ⟨hh, _, b', rfl, Nat.le_trans hb1 (hle.1 _), Nat.le_trans hb2 (hle.1 _)⟩⟩
        have hcas : ∀ n nx, o.v.ptr = some n → (o.ver = C.s.s.heap.poolVer → (C.s.s.heap.next n).ptr = nx) →
            Nxt cfg C c t (C.s.plain t [] C.s.s) (.alloc b v (.cas o nx)) none := by
          intro n nx hn hx
          exact hi.idleStay rfl ⟨hh, ⟨b', hst, Nat.le_trans hb1 (hle.1 _), Nat.le_trans hb2 (hle.1 _)⟩, hal, n, hn, hx⟩
        cases hop : o.v.ptr with
        | none =>
          by_cases hfb : cfg.fixed = true ∨ b = true
          · cases ch <;> simp [tstep, aStep, hop, hfb] at hs
            obtain ⟨rfl, rfl, rfl⟩ := hs
            exact hneu (.pushed false) fun σ => .inr ⟨rfl, by simpa using hfb, rfl⟩
          · cases ch <;> simp [tstep, aStep, hop, hfb] at hs
            · obtain ⟨rfl, rfl, rfl⟩ := hs
              have hraw : g.own C.s.s.heap.nalloc = .raw := (hi.si.heap.raw _).2 (Nat.le_refl _)
              obtain ⟨h5, h6⟩ := hi.si.fl (t := t) hi.si.heap.malloc
                (aStep_tags (ch := (.go : Choice (Op α))) (a := .test o) (b := false) hi.si.ntag
                  (by simp only [Bool.not_eq_true, not_or] at hfb; simp [aStep, hop, hfb.1]; rfl)).1
                (fun n hn => Nat.le_of_eq ((aStep_tags (ch := (.go : Choice (Op α))) (a := .test o) (b := false) hi.si.ntag
                  (by simp only [Bool.not_eq_true, not_or] at hfb; simp [aStep, hop, hfb.1]; rfl)).2 n hn).symm)
              refine hi.plainStay h5 h6 rfl (word_malloc hi) (by simp [touch]) ?_ ?_ rfl ?_
              · intro n hn; simp only [upd_apply] at hn; split at hn
                · subst_vars; exact .inr hraw
                · exact .inl hn
              · intro n hn; simp only [upd_apply] at hn; split at hn
                · simp at hn
                · exact hn
              · refine ⟨by simp [hh], ⟨b', hst, Nat.le_trans hb1 (hle.1 _), Nat.le_trans hb2 (hle.1 _)⟩, ?_⟩
                simp [WSt.plain, Heap.malloc]
            · obtain ⟨rfl, rfl, rfl⟩ := hs
              exact hneu .threw fun σ => rfl
        | some n =>
          cases ch <;> simp [tstep, aStep, hop] at hs
          · obtain ⟨rfl, rfl, rfl⟩ := hs
            exact hcas n _ hop fun _ => rfl
          · rename_i x
            by_cases hpv : C.s.s.heap.poolVer = o.ver
            · simp [hpv] at hs
            · simp [hpv] at hs
              obtain ⟨rfl, rfl, rfl⟩ := hs
              exact hcas n x hop fun he => absurd he.symm hpv
      | _ => simp [tstep] at hs
  | constr b v n =>
    obtain ⟨hh, hpq, hd⟩ := hl
    cases ch with
    | base ch =>
      cases ch <;> simp [tstep, hd] at hs
      · obtain ⟨rfl, rfl, rfl⟩ := hs
        obtain ⟨h5, h6⟩ := hi.si.setData (t := t) (n := n) (by simp [hh]) (some v)
        refine hi.plainStay h5 h6 rfl (fun l => by cases l <;> rfl) ?_ (fun _ h => .inl h) (fun _ h => h) rfl ⟨hh, hpq.mono hle, ?_⟩
        · intro m hm; simp [touch] at hm; subst hm; exact (hi.si.heap.hmem t m).2 (by simp [hh])
        · simp [WSt.plain, Heap.setData]
      · obtain ⟨rfl, rfl, rfl⟩ := hs
        obtain ⟨h5, h6⟩ := hi.si.lose (t := t)
        obtain ⟨b', hst, hb1, hb2⟩ := hpq
        refine ⟨g.lose t, gh, _, .neu hst (r := .threw) (fun σ => rfl), ?_⟩
        refine hi.plainSt h5 h6 rfl (fun l => rfl) ?_ ?_ ?_ rfl ⟨by simp [G.lose], _, b', rfl, Nat.le_trans hb1 (hle.1 _), Nat.le_trans hb2 (hle.1 _)⟩
        · intro m hm; simp [touch] at hm; subst hm; exact (hi.si.heap.hmem t m).2 (by simp [hh])
        · intro m hm; simp only [G.lose] at hm; split at hm
          · simp at hm
          · exact .inl hm
        · intro m hm; simp only [G.lose] at hm; split at hm
          · simp at hm
          · exact hm
    | _ => simp [tstep] at hs
  | nload => simp [loadOf] at h2
  | nstore => simp [storeOf] at h3
  | pTail => simp [loadOf] at h2
  | pNext n T =>
    have := hl.2.1
    rw [this] at h2; simp [loadOf] at h2
  | pCheck => simp [loadOf] at h2
  | pCas n T N =>
    have := hl.2.1.1
    rw [this] at h1; simp [casOf] at h1
  | swing => simp [casOf] at h1
  | cHead => simp [loadOf] at h2
  | cTail => simp [loadOf] at h2
  | cNext H T =>
    have := hl.2.1.1
    rw [this] at h2; simp [loadOf] at h2
  | cCheck => simp [loadOf] at h2
  | cData H y =>
    obtain ⟨h4, h5, h6, h7, h8, h9⟩ := hl
    cases ch with
    | base ch =>
      cases ch with
      | go =>
        simp only [tstep] at hs
        split at hs
        · rename_i v hd
          simp at hs
          obtain ⟨rfl, rfl, rfl⟩ := hs
          exact hi.idleStay rfl ⟨h4, h5.mono hle, h6.mono hle, h7, Nat.lt_of_lt_of_le h8 (hle.1 _), h9.mono hle, fun _ => hd⟩
        · rename_i hd
          split at hs
          · rename_i hv
            exfalso
            rw [hi.headVer] at hv
            obtain ⟨x, hx⟩ := hi.data_next (by rw [hv]; exact h6.1)
            rw [h7, ← hv, hx] at hd; simp at hd
          · simp at hs
      | throw =>
        simp [tstep] at hs
        obtain ⟨rfl, rfl, rfl⟩ := hs
        obtain ⟨b', hst, hb1, hb2⟩ := h9
        exact ⟨g, gh, _, .neu hst (r := .threw) (fun σ => rfl),
          hi.idleSt rfl ⟨h4, _, b', rfl, Nat.le_trans hb1 (hle.1 _), Nat.le_trans hb2 (hle.1 _)⟩⟩
      | _ => simp [tstep] at hs
    | garbage v => simp [ordered] at ho
    | _ => simp [tstep] at hs
  | cCas => simp [casOf] at h1
  | cDestroy n v =>
    obtain ⟨hh, hd⟩ := hl
    cases ch with
    | base ch =>
      cases ch <;> simp [tstep] at hs
      obtain ⟨rfl, rfl, rfl⟩ := hs
      obtain ⟨h5, h6⟩ := hi.si.setData (t := t) (n := n) (by simp [hh]) none
      refine hi.plainStay h5 h6 rfl (fun l => by cases l <;> rfl) ?_ (fun _ h => .inl h) (fun _ h => h) rfl ⟨hh, ?_, trivial, hd.mono hle⟩
      · intro m hm; simp [touch] at hm; subst hm; exact (hi.si.heap.hmem t m).2 (by simp [hh])
      · simp [WSt.plain, Heap.setData]
    | _ => simp [tstep] at hs
  | free k n d =>
    cases d with
    | load => simp [loadOf] at h2
    | set o => simp [storeOf] at h3
    | cas o => simp [casOf] at h1
  | eHead => simp [loadOf] at h2
  | eTail => simp [loadOf] at h2
  | eHead2 => simp [loadOf] at h2
  | rsv k =>
    obtain ⟨hh, j, hpq⟩ := hl
    have hneu : ∀ r, (∀ σ, specStep cfg.fixed σ (.reserve j) r σ) → Nxt cfg C c t (C.s.plain t [] C.s.s) (.ret r) none := by
      intro r hr
      obtain ⟨b', hst, hb1, hb2⟩ := hpq
      exact ⟨g, gh, _, .neu hst hr, hi.idleSt rfl ⟨hh, _, b', rfl, Nat.le_trans hb1 (hle.1 _), Nat.le_trans hb2 (hle.1 _)⟩⟩
    cases ch with
    | base ch =>
      cases k with
      | zero =>
        cases ch <;> simp [tstep] at hs
        obtain ⟨rfl, rfl, rfl⟩ := hs
        exact hneu .reserved fun σ => rfl
      | succ k =>
        cases ch <;> simp [tstep] at hs
        · obtain ⟨rfl, rfl, rfl⟩ := hs
          have hraw : g.own C.s.s.heap.nalloc = .raw := (hi.si.heap.raw _).2 (Nat.le_refl _)
          have hm : TagsOk cfg C.s.s.heap.malloc ∧ ∀ n < C.s.s.heap.nalloc, C.s.s.heap.nver n ≤ C.s.s.heap.malloc.nver n := by
            have := hi.si.ntag
            refine ⟨fun n => ?_, fun n hn => ?_⟩
            · have := this n
              simp only [Heap.malloc, upd_apply]; split <;> simp_all
            · simp only [Heap.malloc]; rw [upd_ne]
              · exact Nat.le_refl _
              · omega
          obtain ⟨h5, h6⟩ := hi.si.fl (t := t) hi.si.heap.malloc hm.1 hm.2
          refine hi.plainStay h5 h6 rfl (word_malloc hi) (by simp [touch]) ?_ ?_ rfl ?_
          · intro n hn; simp only [upd_apply] at hn; split at hn
            · subst_vars; exact .inr hraw
            · exact .inl hn
          · intro n hn; simp only [upd_apply] at hn; split at hn
            · simp at hn
            · exact hn
          · exact ⟨by simp [hh], by simp [WSt.plain, Heap.malloc], trivial, j, hpq.mono hle⟩
        · obtain ⟨rfl, rfl, rfl⟩ := hs
          exact hneu .threw fun σ => rfl
    | _ => cases k <;> simp [tstep] at hs
  | ret r =>
    obtain ⟨hh, o, need, hst, hn1, hn2⟩ := hl
    cases ch with
    | base ch =>
      cases ch <;> simp [tstep] at hs
      obtain ⟨rfl, rfl, rfl⟩ := hs
      refine ⟨g, gh, _, .res hst (s := ((C.s.view t).seen .head, (C.s.view t).seen .tail)) hn1 hn2, ?_⟩
      exact hi.idleSt rfl ⟨hh, rfl⟩
    | _ => simp [tstep] at hs
  | err => exact hl.elim

end

end Verif.Queue
