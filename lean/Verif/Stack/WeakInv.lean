import Verif.Stack.Weak
import Verif.Stack.Sim
import Verif.Stack.Observe

/-!
# Stack under release/acquire memory: inductive invariant and simulation by the canonical weak stack (proof)
-/

namespace Verif.Stack
open Lin

variable {α : Type} {cfg : Cfg}

/-- The step function as a relation. -/
inductive WTrans (cfg : Cfg) (t : Nat) (w : WSt α) (p : PC α) : WChoice α → WSt α → PC α →
    Option (Event (Op α × View Loc) (Ret α × View Loc)) → Prop where
  | rmw {l o s' p' e} : casOf p = some (l, o) → (w.s.word l).v = o.v →
      tstep cfg t w.s p .go = some (s', p', e) → WTrans cfg t w p (.step .go) (w.rmw t l s') p' none
  | plain {ch s' p' e} : casOf p = none → loadOf p = none → (∀ n ∈ touch p, (w.view t).knows (w.acc n) = true) →
      tstep cfg t w.s p ch = some (s', p', e) →
      WTrans cfg t w p (.step ch) (w.plain t (touch p) s') p' (e.map (stamp ((w.view t).tick t)))
  | racing {ch n} : casOf p = none → loadOf p = none → n ∈ touch p → ¬ (w.view t).knows (w.acc n) = true →
      WTrans cfg t w p (.step ch) (w.plain t [] w.s) .err none
  | read {i l ord ch s' p' e} : readOf p = some (l, ord, ch) → (w.view t).seen l ≤ i → i ≤ w.top l →
      tstep cfg t (w.s.withWord (w.msg l i).val l) p ch = some (s', p', e) →
      WTrans cfg t w p (.read i) (w.recv t l i ord) p' none
  | race {n k x} : specOf p = some (n, k) → ¬ ((w.view t).join (w.dep t)).knows (w.acc n) = true →
      WTrans cfg t w p (.race x) (w.plain t [] w.s) (k x) none
  | skip {p'} : quiet cfg p = some p' → WTrans cfg t w p .skip w p' none
  | post : p = .idle → WTrans cfg t w p .post
      { w with view := upd w.view t ((w.view t).tick t), posts := w.posts ++ [(w.view t).tick t] } .idle none
  | wait {k v} : p = .idle → w.posts[k]? = some v → WTrans cfg t w p (.wait k)
      { w with view := upd w.view t (((w.view t).join v).tick t) } .idle none

theorem wtrans_of_wstep {t : Nat} {w : WSt α} {p : PC α} {ch w' p' e}
    (hs : wstep cfg t w p ch = some (w', p', e)) : WTrans cfg t w p ch w' p' e := by
  cases ch with
  | step ch =>
    simp only [wstep] at hs
    split at hs
    · rename_i l o hc
      cases ch <;> simp at hs
      obtain ⟨hw, s', p'', ⟨e', h1⟩, rfl, rfl, rfl⟩ := hs
      exact .rmw hc hw h1
    · rename_i hc
      split at hs
      · simp at hs
      · rename_i hl
        split at hs
        · rename_i hk
          simp only [Option.map_eq_some_iff, Prod.mk.injEq] at hs
          obtain ⟨⟨s', p'', e'⟩, h1, rfl, rfl, rfl⟩ := hs
          exact .plain hc hl (by simpa using hk) h1
        · rename_i hk
          simp only [Option.some.injEq, Prod.mk.injEq] at hs
          obtain ⟨rfl, rfl, rfl⟩ := hs
          simp only [List.all_eq_true, Classical.not_forall] at hk
          obtain ⟨n, h1, h2⟩ := hk
          exact .racing hc hl h1 h2
  | read i =>
    simp only [wstep] at hs
    split at hs
    · simp at hs
    · rename_i l ord ch hr
      split at hs
      · rename_i hi
        simp only [Option.map_eq_some_iff, Prod.mk.injEq] at hs
        obtain ⟨⟨s', p'', e'⟩, h1, rfl, rfl, rfl⟩ := hs
        exact .read hr hi.1 hi.2 h1
      · simp at hs
  | race x =>
    simp only [wstep] at hs
    split at hs
    · simp at hs
    · rename_i n k hr
      split at hs
      · simp at hs
      · simp only [Option.some.injEq, Prod.mk.injEq] at hs
        obtain ⟨rfl, rfl, rfl⟩ := hs
        exact .race hr (by assumption)
  | skip =>
    simp only [wstep, Option.map_eq_some_iff, Prod.mk.injEq] at hs
    obtain ⟨p'', h1, rfl, rfl, rfl⟩ := hs
    exact .skip h1
  | post =>
    simp only [wstep] at hs
    split at hs
    · simp only [Option.some.injEq, Prod.mk.injEq] at hs
      obtain ⟨rfl, rfl, rfl⟩ := hs
      exact .post rfl
    · simp at hs
  | wait k =>
    simp only [wstep] at hs
    split at hs
    · simp only [Option.some.injEq, Prod.mk.injEq] at hs
      obtain ⟨rfl, rfl, rfl⟩ := hs
      exact .wait rfl (by assumption)
    · simp at hs

/-! ### Facts about single steps of the program -/

theorem quiet_tstep {p p' : PC α} (h : quiet cfg p = some p') (t : Nat) (s : St α) :
    tstep cfg t s p .go = some (s, p', none) ∧ casOf p = none ∧ loadOf p = none ∧ touch p = [] ∧ specOf p = none := by
  unfold quiet at h
  split at h
  · split at h <;> simp at h
    rename_i hn
    subst h
    rw [Option.isNone_iff_eq_none] at hn
    simp [tstep, hn, casOf, loadOf, touch, specOf]
  · rename_i rev thr o
    rcases hn : o.v.ptr with _ | x <;> simp [hn] at h <;> subst h <;> simp [tstep, hn, casOf, loadOf, touch, specOf]
  · split at h <;> simp at h
    rename_i hn
    subst h
    simp only [Bool.and_eq_true, Option.isNone_iff_eq_none] at hn
    simp [tstep, aStep, hn, casOf, loadOf, touch, specOf]
  · simp at h
    subst h
    simp [tstep, casOf, loadOf, touch, specOf]
  · simp at h

/-- The snapshot through which the next step reads speculatively. -/
def specSnap : PC α → Option (Loc × Snap)
  | .ptest _ o => some (.tos, o)
  | .alloc _ _ (.test o) => some (.pool, o)
  | _ => none

theorem aStep_test {b : Bool} {h h' : Heap α} {o ch r} (hs : aStep (Op := Op α) cfg b h (.test o) ch = some (h', r)) :
    h'.poolSnap = h.poolSnap ∧ ∀ o', r ≠ .more (.test o') := by
  simp only [aStep] at hs
  split at hs <;> (try split at hs) <;> (try split at hs) <;> simp at hs <;> obtain ⟨rfl, rfl⟩ := hs <;>
    simp [Heap.poolSnap, Heap.malloc]

theorem dStep_set {h h' : Heap α} {n o ch r} (hs : dStep (Op := Op α) h n (.set o) ch = some (h', r)) :
    h'.poolSnap = h.poolSnap := by
  cases ch <;> simp [dStep] at hs
  obtain ⟨rfl, rfl⟩ := hs; rfl

theorem word_heap {s : St α} {h : Heap α} (hp : h.poolSnap = s.heap.poolSnap) :
    ∀ l, St.word { s with heap := h } l = s.word l := by
  intro l; cases l
  · rfl
  · exact hp

theorem word_pool {s : St α} {h : Heap α} : St.word { s with heap := h } .tos = s.word .tos := rfl

theorem specSnap_onNull (k : PushK α) : specSnap (onNull k) = none := by
  cases k with
  | one => rfl
  | range acc te v rest => cases te <;> rfl

theorem specSnap_onThrow (k : PushK α) : specSnap (onThrow k) = none := by
  cases k with
  | one => rfl
  | range acc te v rest => cases te <;> rfl

theorem specSnap_onFreed (k : FreeK α) : specSnap (onFreed k) = none := by
  cases k with
  | pop | rsv => rfl
  | cons thr acc nx => cases nx <;> rfl
  | undo nx => cases nx <;> rfl

theorem specSnap_onLinked {b : Bool} {acc : List α} {top e : Nat} (rest : List α) :
    specSnap (onLinked b acc top e rest) = none := by
  cases rest <;> rfl

theorem specSnap_start {o : Op α} {p} (h : start cfg o = some p) : specSnap p = none := by
  cases o with
  | pushRange b vs =>
    simp only [start] at h
    split at h
    · simp at h
    · split at h <;> simp at h <;> subst h <;> rfl
  | reserve k => simp only [start] at h; split at h <;> simp at h; subst h; rfl
  | _ => simp [start] at h; subst h; rfl

/-- Steps without atomic access. -/
theorem tstep_plain {t : Nat} {s s' : St α} {p p' : PC α} {ch e} (hs : tstep cfg t s p ch = some (s', p', e))
    (hc : casOf p = none) (hl : loadOf p = none) : (∀ l, s'.word l = s.word l) ∧ specSnap p' = none := by
  cases trans_of_tstep hs with
  | call h => exact ⟨fun _ => rfl, specSnap_start h⟩
  | @allocMore b k a ch h a' hst =>
    cases a with
    | load => simp [loadOf] at hl
    | cas => simp [casOf] at hc
    | test o =>
      obtain ⟨h1, h2⟩ := aStep_test hst
      refine ⟨word_heap h1, ?_⟩
      cases a' with
      | test o' => exact absurd rfl (h2 o')
      | _ => rfl
  | @allocGot b k a ch h n hst =>
    cases a with
    | load => simp [loadOf] at hl
    | cas => simp [casOf] at hc
    | test o => exact ⟨word_heap (aStep_test hst).1, rfl⟩
  | @allocNull b k a ch h hst =>
    cases a with
    | load => simp [loadOf] at hl
    | cas => simp [casOf] at hc
    | test o => exact ⟨word_heap (aStep_test hst).1, specSnap_onNull k⟩
  | @allocBad b k a ch h hst =>
    cases a with
    | load => simp [loadOf] at hl
    | cas => simp [casOf] at hc
    | test o => exact ⟨word_heap (aStep_test hst).1, specSnap_onThrow k⟩
  | @freeMore k n d ch h d' hst =>
    cases d with
    | load => simp [loadOf] at hl
    | cas => simp [casOf] at hc
    | set o => exact ⟨word_heap (dStep_set hst), rfl⟩
  | @freeDone k n d ch h hst =>
    cases d with
    | load => simp [loadOf] at hl
    | cas => simp [casOf] at hc
    | set o => exact ⟨word_heap (dStep_set hst), specSnap_onFreed k⟩
  | constrThrow => exact ⟨fun _ => rfl, specSnap_onThrow _⟩
  | rlinkFirst | rlinkNext => exact ⟨word_heap rfl, specSnap_onLinked _⟩
  | lload | pload | cload | eload => simp [loadOf] at hl
  | lcasOk | pcasOk | ccasOk | lcasFail | pcasFail | ccasFail => simp [casOf] at hc
  | constrOne | constrRange | pdestroy | cdestroy | undoD | lset | crevSetLast | crevSetMore | rsv =>
    exact ⟨word_heap rfl, rfl⟩
  | _ => exact ⟨fun _ => rfl, rfl⟩

/-- Successful compare-exchanges. -/
theorem tstep_rmw {t : Nat} {s s' : St α} {p p' : PC α} {e l o} (hs : tstep cfg t s p .go = some (s', p', e))
    (hc : casOf p = some (l, o)) (hw : (s.word l).v = o.v) :
    (∀ l', l' ≠ l → s'.word l' = s.word l') ∧ specSnap p' = none ∧ e = none := by
  cases p with
  | alloc b k a =>
    cases a <;> simp [casOf] at hc
    obtain ⟨rfl, rfl⟩ := hc
    simp only [St.word, Heap.poolSnap] at hw
    simp only [tstep, aStep, hw, if_true] at hs
    rename_i o _
    cases hp : o.v.ptr <;> simp [hp] at hs
    obtain ⟨rfl, rfl, rfl⟩ := hs
    refine ⟨fun l' h => ?_, rfl, rfl⟩
    cases l'
    · rfl
    · exact absurd rfl h
  | free k n d =>
    cases d <;> simp [casOf] at hc
    obtain ⟨rfl, rfl⟩ := hc
    simp only [St.word, Heap.poolSnap] at hw
    simp [tstep, dStep, hw] at hs
    obtain ⟨rfl, rfl, rfl⟩ := hs
    refine ⟨fun l' h => ?_, specSnap_onFreed k, rfl⟩
    cases l'
    · rfl
    · exact absurd rfl h
  | lcas top e o r =>
    simp [casOf] at hc
    obtain ⟨rfl, rfl⟩ := hc
    simp only [St.word, St.tosSnap] at hw
    simp [tstep, hw] at hs
    obtain ⟨rfl, rfl, rfl⟩ := hs
    refine ⟨fun l' h => ?_, rfl, rfl⟩
    cases l'
    · exact absurd rfl h
    · rfl
  | pcas thr o nx =>
    simp [casOf] at hc
    obtain ⟨rfl, rfl⟩ := hc
    simp only [St.word, St.tosSnap] at hw
    simp only [tstep, hw, if_true] at hs
    cases hp : o.v.ptr <;> simp [hp] at hs
    obtain ⟨rfl, rfl, rfl⟩ := hs
    refine ⟨fun l' h => ?_, rfl, rfl⟩
    cases l'
    · exact absurd rfl h
    · rfl
  | ccas rev thr o =>
    simp [casOf] at hc
    obtain ⟨rfl, rfl⟩ := hc
    simp only [St.word, St.tosSnap] at hw
    simp only [tstep, hw, if_true] at hs
    cases hp : o.v.ptr <;> simp [hp] at hs
    obtain ⟨rfl, rfl, rfl⟩ := hs
    refine ⟨fun l' h => ?_, by cases rev <;> rfl, rfl⟩
    cases l'
    · exact absurd rfl h
    · rfl
  | _ => simp [casOf] at hc

/-- Nodes accessed belong to the thread. -/
theorem Local.touch_held {s : St α} {F S l st p} (hl : Local cfg s F S l st p) {m : Nat} (hm : m ∈ touch p) :
    m ∈ l := by
  cases p with
  | constr b k n =>
    simp [touch] at hm; subst hm
    cases k with
    | one v => simp [hl.1]
    | range acc te v rest => obtain ⟨l', rfl, _⟩ := hl; simp
  | rlink b acc te v rest n => simp [touch] at hm; subst hm; obtain ⟨l', rfl, _⟩ := hl; simp
  | lset top e o r =>
    simp [touch] at hm; subst hm
    obtain ⟨q, o, vs, h1, h2, _⟩ := hl; exact List.mem_of_getLast? h2
  | papply thr n => simp [touch] at hm; subst hm; simp [hl.1]
  | pdestroy n v => simp [touch] at hm; subst hm; simp [hl.1]
  | free k n d =>
    cases d <;> simp [touch] at hm
    subst hm; obtain ⟨l', rfl, _⟩ := hl; simp
  | crev thr n last => simp [touch] at hm; subst hm; obtain ⟨A, B, vals, rfl, _⟩ := hl; simp
  | crevSet thr n last nx => simp [touch] at hm; subst hm; obtain ⟨A, B, vals, rfl, _⟩ := hl; simp
  | capply thr n acc => simp [touch] at hm; subst hm; exact hl.1.mem_some rfl
  | cread thr n acc => simp [touch] at hm; subst hm; obtain ⟨l', rfl, _⟩ := hl; simp
  | cdestroy thr n acc nx => simp [touch] at hm; subst hm; obtain ⟨l', rfl, _⟩ := hl; simp
  | undo n => simp [touch] at hm; subst hm; exact hl.1.mem_some rfl
  | undoD n nx => simp [touch] at hm; subst hm; obtain ⟨l', rfl, _⟩ := hl; simp
  | _ => simp [touch] at hm

theorem isPend.not_done {st : Status (Op α) (Ret α)} {o r} (h1 : isPend st o) (h2 : isDone st r) : False := by
  obtain ⟨P, rfl⟩ := h1
  obtain ⟨o', h⟩ := h2
  cases h

/-- A call that takes effect in a step without atomic access does so without looking at the contents. -/
theorem plain_effect {t : Nat} {s s' : St α} {p p' : PC α} {ch} (hs : tstep cfg t s p ch = some (s', p', none))
    (hc : casOf p = none) (hld : loadOf p = none) {F S l F' S' l' st o r}
    (hl : Local cfg s F S l st p) (hl' : Local cfg s' F' S' l' (.done o r) p') (hp : isPend st o)
    {σ σ' : List α} (hst : specStep cfg.fixed σ o r σ') : σ' = σ ∧ ∀ τ, specStep cfg.fixed τ o r τ := by
  have hnp : ∀ {o'}, ¬ isPend (Status.done o r) o' := fun ⟨_, h⟩ => by cases h
  have hdr : ∀ {r'}, isDone (Status.done o r) r' → r' = r := fun ⟨_, h⟩ => by cases h; rfl
  have hop : ∀ {o'}, isPend st o' → o' = o := fun ⟨_, h⟩ => by
    obtain ⟨_, h'⟩ := hp; rw [h] at h'; cases h'; rfl
  cases trans_of_tstep hs with
  | @allocMore b k a ch h a' hst' =>
    cases k with
    | one v => exact absurd hl'.2.1 hnp
    | range => exact absurd hl'.2.1 hnp
  | @allocGot b k a ch h n hst' =>
    cases k with
    | one v => exact absurd hl'.2.1 hnp
    | range => obtain ⟨_, _, _, h3, _⟩ := hl'; exact absurd h3 hnp
  | @allocNull b k a ch h hst' =>
    cases k with
    | one v =>
      have h1 := hop hl.2.1
      have h2 := hdr hl'.2
      subst h1; subst h2
      simp only [specStep] at hst ⊢
      grind
    | range acc te v rest =>
      cases te with
      | none =>
        have h1 := hop hl.2.1
        have h2 := hdr hl'.2
        have h3 := hl.1.2
        subst h1; subst h2
        simp only [specStep] at hst ⊢
        simp at hst ⊢
        exact ⟨hst.2, hst.1⟩
      | some te => obtain ⟨_, _, _, _, _, _, h, _⟩ := hl'; exact absurd h hnp
  | @allocBad b k a ch h hst' =>
    cases k with
    | one v =>
      have h1 := hop hl.2.1
      have h2 := hdr hl'.2
      subst h1; subst h2
      simp only [specStep] at hst ⊢
      exact ⟨hst, fun _ => trivial⟩
    | range acc te v rest =>
      have h1 := hop hl.2.1
      have h2 : Ret.threw = r := by
        cases te with
        | none => exact hdr hl'.2
        | some te => exact hdr hl'.2.2
      subst h1; subst h2
      simp only [specStep] at hst ⊢
      exact ⟨hst, fun _ => trivial⟩
  | @constrThrow b k n =>
    cases k with
    | one v =>
      have h1 := hop hl.2.1
      have h2 := hdr hl'.2
      subst h1; subst h2
      simp only [specStep] at hst ⊢
      exact ⟨hst, fun _ => trivial⟩
    | range acc te v rest =>
      obtain ⟨_, _, _, h3, _⟩ := hl
      have h1 := hop h3
      have h2 : Ret.threw = r := by
        cases te with
        | none => exact hdr hl'.2
        | some te => exact hdr hl'.2.2
      subst h1; subst h2
      simp only [specStep] at hst ⊢
      exact ⟨hst, fun _ => trivial⟩
  | rsvDone =>
    obtain ⟨_, j, h3⟩ := hl
    have h1 := hop h3
    have h2 := hdr hl'.2
    subst h1; subst h2
    simp only [specStep] at hst ⊢
    exact ⟨hst, fun _ => trivial⟩
  | rsvThrow =>
    obtain ⟨_, j, h3⟩ := hl
    have h1 := hop h3
    have h2 := hdr hl'.2
    subst h1; subst h2
    simp only [specStep] at hst ⊢
    exact ⟨hst, fun _ => trivial⟩
  | rsv => obtain ⟨_, _, _, _, _, _, h⟩ := hl'; exact absurd h hnp
  | constrErr | papplyErr | pdestroyErr | capplyErr | cdestroyErr | undoDErr => exact hl'.elim
  | constrOne => obtain ⟨_, _, _, _, _, _, h, _⟩ := hl'; exact absurd h hnp
  | constrRange => obtain ⟨_, _, _, h, _⟩ := hl'; exact absurd h hnp
  | @rlinkFirst b acc v rest n =>
    cases rest with
    | nil => obtain ⟨_, _, _, _, _, _, h, _⟩ := hl'; exact absurd h hnp
    | cons => exact absurd hl'.2.1 hnp
  | @rlinkNext b acc top e v rest n =>
    cases rest with
    | nil => obtain ⟨_, _, _, _, _, _, h, _⟩ := hl'; exact absurd h hnp
    | cons => exact absurd hl'.2.1 hnp
  | lload | pload | cload | eload => simp [loadOf] at hld
  | lcasOk | pcasOk | ccasOk | lcasFail | pcasFail | ccasFail => simp [casOf] at hc
  | lset => obtain ⟨_, _, _, _, _, h, _⟩ := hl'; exact absurd h hnp
  | ptestNull h => exact (hp.not_done (hl.2.1 h)).elim
  | ptestSome | ptestRacy => exact absurd hl'.2.1 hnp
  | papplyThrow | papply => obtain ⟨_, _, _, h⟩ := hl; exact (hp.not_done h).elim
  | pdestroy => exact (hp.not_done hl.2.2).elim
  | @freeMore k n d ch h d' hst' =>
    obtain ⟨_, _, _, _, h⟩ := hl'
    obtain ⟨_, _, _, _, h0⟩ := hl
    cases k with
    | pop v => exact (hp.not_done h0.2).elim
    | cons thr acc nx => obtain ⟨_, ⟨_, _, h⟩, _⟩ := h0; exact (hp.not_done h).elim
    | rsv => obtain ⟨_, _, h⟩ := h; exact absurd h hnp
    | undo => exact (hp.not_done h0.2.2).elim
  | @freeDone k n d ch h hst' =>
    obtain ⟨_, _, _, _, h0⟩ := hl
    cases k with
    | pop v => exact (hp.not_done h0.2).elim
    | cons thr acc nx => obtain ⟨_, ⟨_, _, h⟩, _⟩ := h0; exact (hp.not_done h).elim
    | rsv => obtain ⟨_, _, h⟩ := hl'; exact absurd h hnp
    | undo => exact (hp.not_done h0.2.2).elim
  | ctestNull h => exact (hp.not_done (hl.2.1 h)).elim
  | ctestSome => exact absurd hl'.2.1 hnp
  | crev | crevSetLast | crevSetMore => obtain ⟨_, _, _, _, _, _, _, h⟩ := hl; exact (hp.not_done h).elim
  | capplyThrow | capply => obtain ⟨_, ⟨_, _, h⟩, _⟩ := hl; exact (hp.not_done h).elim
  | cread | cdestroy => obtain ⟨_, _, _, _, ⟨_, _, h⟩, _⟩ := hl; exact (hp.not_done h).elim
  | undo => exact (hp.not_done hl.2.2).elim
  | undoD => obtain ⟨_, _, _, _, h⟩ := hl; exact (hp.not_done h).elim

/-- A snapshot of an atomic object. -/
def SnapAt (cfg : Cfg) (s : St α) (F S : List Nat) (x : Snap) : Loc → Prop
  | .tos => TSnap cfg s S x
  | .pool => PSnap cfg s.heap F x

/-- The owner of the nodes reachable from an atomic object. -/
def ofLoc : Loc → Owner
  | .tos => .str
  | .pool => .free

theorem SnapAt.mono {l s F S s' F' S'} (hr : Rely (α := α) l s F S s' F' S') {x : Snap} {lc : Loc}
    (h : SnapAt cfg s F S x lc) : SnapAt cfg s' F' S' x lc := by
  cases lc
  · exact TSnap.mono hr h
  · exact PSnap.mono h hr.nalloc hr.pver fun he n hm => (hr.pF he n hm).1

theorem SnapAt.ver_le {s : St α} {F S} {x : Snap} {lc : Loc} (h : SnapAt cfg s F S x lc) :
    x.ver ≤ (s.word lc).ver := by
  cases lc <;> exact h.1

theorem SnapAt.lt {s : St α} {F S} {x : Snap} {lc : Loc} (h : SnapAt cfg s F S x lc) {n} (hn : x.v.ptr = some n) :
    n < s.heap.nalloc := by
  cases lc <;> exact (h.2.2 n hn).1

theorem SI.snap {s : St α} {g σ} (hi : SI cfg s g σ) (lc : Loc) : SnapAt cfg s g.F g.S (s.word lc) lc := by
  cases lc
  · exact hi.tosSnap
  · exact hi.heap.poolSnap

theorem SnapAt.own {s : St α} {g σ} (hi : SI cfg s g σ) {x : Snap} {lc : Loc} (h : SnapAt cfg s g.F g.S x lc) {n}
    (hn : x.v.ptr = some n) (hv : x.ver = (s.word lc).ver) : g.own n = ofLoc lc := by
  cases lc
  · exact (hi.mem n).2 ((h.2.2 n hn).2 hv)
  · exact (hi.heap.fmem n).2 ((h.2.2 n hn).2 hv)

theorem Local.snap {s : St α} {F S l st p} (hl : Local cfg s F S l st p) {lc o} (h : specSnap p = some (lc, o)) :
    SnapAt cfg s F S o lc := by
  cases p with
  | ptest thr o => simp [specSnap] at h; obtain ⟨rfl, rfl⟩ := h; exact hl.2.2.2
  | alloc b k a =>
    cases a <;> simp [specSnap] at h
    obtain ⟨rfl, rfl⟩ := h
    cases k with
    | one v => exact hl.2.2
    | range acc te v rest => exact hl.2.2.1
  | _ => simp [specSnap] at h

/-- Loads and failing compare-exchanges. -/
theorem tstep_read {t : Nat} {s s' : St α} {p p' : PC α} {x : Snap} {lc ord ch e F S l st}
    (hl : Local cfg s F S l st p) (hr : readOf p = some (lc, ord, ch)) (hx : SnapAt cfg s F S x lc)
    (hs : tstep cfg t (s.withWord x lc) p ch = some (s', p', e)) :
    (Local cfg s F S l st p' ∨ ∃ o r, isPend st o ∧ lc = .tos ∧ Local cfg s F S l (.done o r) p' ∧
      ∀ σ, (x.v.ptr = none ↔ σ = []) → specStep cfg.fixed σ o r σ) ∧
    ∀ lc' o, specSnap p' = some (lc', o) → lc' = lc ∧ o = x ∧ ord ≠ .relaxed := by
  cases p with
  | alloc b k a =>
    cases a with
    | test o => simp [readOf, loadOf, casOf] at hr
    | load =>
      simp [readOf, loadOf, casOf] at hr
      obtain ⟨rfl, rfl, rfl⟩ := hr
      simp [tstep, aStep, St.withWord] at hs
      obtain ⟨-, rfl, rfl⟩ := hs
      refine ⟨.inl ?_, fun lc' o h => ?_⟩
      · cases k with
        | one v => exact ⟨hl.1, hl.2.1, hx⟩
        | range acc te v rest => exact ⟨hl.1, hl.2.1, hx, hl.2.2.2⟩
      · simp [specSnap] at h; obtain ⟨rfl, rfl⟩ := h; exact ⟨rfl, rfl, nofun⟩
    | cas o nx =>
      simp [readOf, loadOf, casOf] at hr
      obtain ⟨rfl, rfl, rfl⟩ := hr
      simp [tstep, aStep, St.withWord] at hs
      obtain ⟨-, rfl, rfl⟩ := hs
      refine ⟨.inl ?_, fun lc' o h => ?_⟩
      · cases k with
        | one v => exact ⟨hl.1, hl.2.1, hx⟩
        | range acc te v rest => exact ⟨hl.1, hl.2.1, hx, hl.2.2.2⟩
      · simp [specSnap] at h; obtain ⟨rfl, rfl⟩ := h; exact ⟨rfl, rfl, nofun⟩
  | free k n d =>
    cases d with
    | set o => simp [readOf, loadOf, casOf] at hr
    | load =>
      simp [readOf, loadOf, casOf] at hr
      obtain ⟨rfl, rfl, rfl⟩ := hr
      simp [tstep, dStep, St.withWord] at hs
      obtain ⟨-, rfl, rfl⟩ := hs
      refine ⟨.inl ?_, fun lc' o h => by simp [specSnap] at h⟩
      obtain ⟨l', h1, h2, -, h3⟩ := hl
      exact ⟨l', h1, h2, trivial, h3⟩
    | cas o =>
      simp [readOf, loadOf, casOf] at hr
      obtain ⟨rfl, rfl, rfl⟩ := hr
      simp [tstep, dStep, St.withWord] at hs
      obtain ⟨-, rfl, rfl⟩ := hs
      refine ⟨.inl ?_, fun lc' o h => by simp [specSnap] at h⟩
      obtain ⟨l', h1, h2, -, h3⟩ := hl
      exact ⟨l', h1, h2, trivial, h3⟩
  | lload top e r =>
    simp [readOf, loadOf, casOf] at hr
    obtain ⟨rfl, rfl, rfl⟩ := hr
    simp [tstep, St.withWord] at hs
    obtain ⟨-, rfl, rfl⟩ := hs
    exact ⟨.inl hl, fun lc' o h => by simp [specSnap] at h⟩
  | lcas top e o r =>
    simp [readOf, loadOf, casOf] at hr
    obtain ⟨rfl, rfl, rfl⟩ := hr
    simp [tstep, St.withWord] at hs
    obtain ⟨-, rfl, rfl⟩ := hs
    exact ⟨.inl ⟨_, hl⟩, fun lc' o h => by simp [specSnap] at h⟩
  | pload thr =>
    simp [readOf, loadOf, casOf] at hr
    obtain ⟨rfl, rfl, rfl⟩ := hr
    simp [tstep, St.withWord, St.tosSnap] at hs
    obtain ⟨-, rfl, rfl⟩ := hs
    refine ⟨?_, fun lc' o h => by simp [specSnap] at h; obtain ⟨rfl, rfl⟩ := h; exact ⟨rfl, rfl, nofun⟩⟩
    by_cases hn : x.v.ptr = none
    · refine .inr ⟨_, .popped none, hl.2, rfl, ⟨hl.1, fun _ => ⟨_, rfl⟩, fun h => absurd hn h, hx⟩, fun σ hσ => ?_⟩
      have := hσ.1 hn
      simp [specStep, this]
    · exact .inl ⟨hl.1, fun h => absurd h hn, fun _ => hl.2, hx⟩
  | pcas thr o nx =>
    simp [readOf, loadOf, casOf] at hr
    obtain ⟨rfl, rfl, rfl⟩ := hr
    simp [tstep, St.withWord, St.tosSnap] at hs
    obtain ⟨-, rfl, rfl⟩ := hs
    refine ⟨?_, fun lc' o h => by simp [specSnap] at h; obtain ⟨rfl, rfl⟩ := h; exact ⟨rfl, rfl, nofun⟩⟩
    by_cases hn : x.v.ptr = none
    · refine .inr ⟨_, .popped none, hl.2.1, rfl, ⟨hl.1, fun _ => ⟨_, rfl⟩, fun h => absurd hn h, hx⟩, fun σ hσ => ?_⟩
      have := hσ.1 hn
      simp [specStep, this]
    · exact .inl ⟨hl.1, fun h => absurd h hn, fun _ => hl.2.1, hx⟩
  | cload rev thr =>
    simp [readOf, loadOf, casOf] at hr
    obtain ⟨rfl, rfl, rfl⟩ := hr
    simp [tstep, St.withWord, St.tosSnap] at hs
    obtain ⟨-, rfl, rfl⟩ := hs
    refine ⟨?_, fun lc' o h => by simp [specSnap] at h⟩
    by_cases hn : x.v.ptr = none
    · refine .inr ⟨_, .took [], hl.2, rfl, ⟨hl.1, fun _ => ⟨_, rfl⟩, fun h => absurd hn h, hx⟩, fun σ hσ => ?_⟩
      have := hσ.1 hn
      subst this
      cases rev <;> cases thr <;> simp [specStep, seen]
    · exact .inl ⟨hl.1, fun h => absurd h hn, fun _ => hl.2, hx⟩
  | ccas rev thr o =>
    simp [readOf, loadOf, casOf] at hr
    obtain ⟨rfl, rfl, rfl⟩ := hr
    simp [tstep, St.withWord, St.tosSnap] at hs
    obtain ⟨-, rfl, rfl⟩ := hs
    refine ⟨?_, fun lc' o h => by simp [specSnap] at h⟩
    by_cases hn : x.v.ptr = none
    · refine .inr ⟨_, .took [], hl.2.1, rfl, ⟨hl.1, fun _ => ⟨_, rfl⟩, fun h => absurd hn h, hx⟩, fun σ hσ => ?_⟩
      have := hσ.1 hn
      subst this
      cases rev <;> cases thr <;> simp [specStep, seen]
    · exact .inl ⟨hl.1, fun h => absurd h hn, fun _ => hl.2.1, hx⟩
  | eload =>
    simp [readOf, loadOf, casOf] at hr
    obtain ⟨rfl, rfl, rfl⟩ := hr
    simp [tstep, St.withWord] at hs
    obtain ⟨-, rfl, rfl⟩ := hs
    refine ⟨.inr ⟨_, _, hl.2, rfl, ⟨hl.1, _, rfl⟩, fun σ hσ => ?_⟩, fun lc' o h => by simp [specSnap] at h⟩
    simp [specStep, ← hσ]
  | _ => simp [readOf, loadOf, casOf] at hr

/-- Racing speculative reads. -/
theorem race_local {s : St α} {p : PC α} {F S l st n k x} (hl : Local cfg s F S l st p)
    (hsp : specOf p = some (n, k)) (hv : ∀ lc o, specSnap p = some (lc, o) → o.v.ptr = some n →
      o.ver ≠ (s.word lc).ver) : Local cfg s F S l st (k x) ∧ specSnap (k x) = none := by
  cases p with
  | ptest thr o =>
    simp only [specOf, Option.map_eq_some_iff, Prod.mk.injEq] at hsp
    obtain ⟨m, hm, rfl, rfl⟩ := hsp
    exact ⟨⟨hl.1, hl.2.2.1 (by simp [hm]), hl.2.2.2, m, hm, fun he => absurd he (hv _ _ rfl hm)⟩, rfl⟩
  | alloc b kk a =>
    cases a with
    | test o =>
      simp only [specOf, Option.map_eq_some_iff, Prod.mk.injEq] at hsp
      obtain ⟨m, hm, rfl, rfl⟩ := hsp
      refine ⟨?_, rfl⟩
      cases kk with
      | one v => exact ⟨hl.1, hl.2.1, hl.2.2, m, hm, fun he => absurd he (hv _ _ rfl hm)⟩
      | range acc te v rest => exact ⟨hl.1, hl.2.1, ⟨hl.2.2.1, m, hm, fun he => absurd he (hv _ _ rfl hm)⟩, hl.2.2.2⟩
    | _ => simp [specOf] at hsp
  | _ => simp [specOf] at hsp

end Verif.Stack
