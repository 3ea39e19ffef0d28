import Verif.Queue.WeakMem
import Verif.Queue.WeakLin
import Verif.Queue.Inv

/-!
# Queue under release/acquire memory: inductive invariant (proof)
-/

namespace Verif.Queue
open Lin

variable {α : Type} {cfg : Cfg}

/-! ### The step function as a relation -/

/-- Steps that read message `x` of `l` and do not write. -/
inductive Rd : PC α → Loc → Order → Snap → PC α → Prop where
  | aload {b v x} : Rd (.alloc b v .load) .pool .consume x (.alloc b v (.test x))
  | acas {b v o nx x} : Rd (.alloc b v (.cas o nx)) .pool .acquire x (.alloc b v (.test x))
  | fload {k n x} : Rd (.free k n .load) .pool .consume x (.free k n (.set x))
  | fcas {k n o x} : Rd (.free k n (.cas o)) .pool .acquire x (.free k n (.set x))
  | nload {b v n x} : Rd (.nload b v n) (.next n) .relaxed x (.nstore b v n x.v)
  | pTail {n x} : Rd (.pTail n) .tail .acquire x (.pNext n x)
  | pNext {n T m x} : T.v.ptr = some m → Rd (.pNext n T) (.next m) .acquire x (.pCheck n T x)
  | pCheckT {n T N x} : x.v = T.v → Rd (.pCheck n T N) .tail .acquire x (pBranch n T N)
  | pCheckF {n T N x} : x.v ≠ T.v → Rd (.pCheck n T N) .tail .acquire x (.pTail n)
  | pCas {n T N m x} : T.v.ptr = some m → Rd (.pCas n T N) (.next m) .acquire x (.pTail n)
  | swing {k T y x} : x.v ≠ T.v → Rd (.swing k T y) .tail .acquire x (onSwung k)
  | cHead {x} : Rd .cHead .head .acquire x (.cTail x)
  | cTail {H x} : Rd (.cTail H) .tail .acquire x (.cNext H x)
  | cNext {H T m x} : H.v.ptr = some m → Rd (.cNext H T) (.next m) .acquire x (.cCheck H T x)
  | cCheckT {H T N x} : x.v = H.v → Rd (.cCheck H T N) .head .acquire x (cBranch H T N)
  | cCheckF {H T N x} : x.v ≠ H.v → Rd (.cCheck H T N) .head .acquire x .cHead
  | cCas {H y v x} : Rd (.cCas H y v) .head .acquire x .cHead
  | eHead {x} : Rd .eHead .head .acquire x (.eTail x)
  | eHead' {x} : Rd .eHead .tail .acquire x (.eHead2 x)
  | eTail {H x b} : Rd (.eTail H) .tail .acquire x (.ret (.isEmpty b))
  | eHead2 {T x b} : Rd (.eHead2 T) .head .acquire x (.ret (.isEmpty b))

theorem rd_load {t : Nat} {s s' : St α} {alt p l ord ch x p' e} (hl : loadOf alt p = some (l, ord, ch))
    (hs : tstep cfg t (s.withWord x l) p ch = some (s', p', e)) : Rd p l ord x p' := by
  cases p with
  | alloc b v a =>
    cases a <;> simp [loadOf] at hl
    obtain ⟨rfl, rfl, rfl⟩ := hl
    simp [tstep, aStep, St.withWord, Heap.poolSnap] at hs
    obtain ⟨_, rfl, _⟩ := hs; exact .aload
  | free k n d =>
    cases d <;> simp [loadOf] at hl
    obtain ⟨rfl, rfl, rfl⟩ := hl
    simp [tstep, dStep, St.withWord, Heap.poolSnap] at hs
    obtain ⟨_, rfl, _⟩ := hs; exact .fload
  | nload b v n =>
    simp [loadOf] at hl
    obtain ⟨rfl, rfl, rfl⟩ := hl
    simp [tstep, St.withWord] at hs
    obtain ⟨_, rfl, _⟩ := hs; exact .nload
  | pTail n =>
    simp [loadOf] at hl
    obtain ⟨rfl, rfl, rfl⟩ := hl
    simp [tstep, St.withWord, St.tailSnap] at hs
    obtain ⟨_, rfl, _⟩ := hs; exact .pTail
  | pNext n T =>
    simp [loadOf] at hl
    obtain ⟨m, hm, rfl, rfl, rfl⟩ := hl
    simp [tstep, St.withWord, St.nextSnap, hm] at hs
    obtain ⟨_, rfl, _⟩ := hs; exact .pNext hm
  | pCheck n T N =>
    simp [loadOf] at hl
    obtain ⟨rfl, rfl, rfl⟩ := hl
    simp only [tstep] at hs
    by_cases hx : x.v = T.v
    · rw [if_pos (show (s.withWord x .tail).tail = T.v from hx)] at hs
      simp at hs; obtain ⟨_, rfl, _⟩ := hs
      exact .pCheckT hx
    · rw [if_neg (show ¬ (s.withWord x .tail).tail = T.v from hx)] at hs
      simp at hs; obtain ⟨_, rfl, _⟩ := hs
      exact .pCheckF hx
  | cHead =>
    simp [loadOf] at hl
    obtain ⟨rfl, rfl, rfl⟩ := hl
    simp [tstep, St.withWord, St.headSnap] at hs
    obtain ⟨_, rfl, _⟩ := hs; exact .cHead
  | cTail H =>
    simp [loadOf] at hl
    obtain ⟨rfl, rfl, rfl⟩ := hl
    simp [tstep, St.withWord, St.tailSnap] at hs
    obtain ⟨_, rfl, _⟩ := hs; exact .cTail
  | cNext H T =>
    simp [loadOf] at hl
    obtain ⟨m, hm, rfl, rfl, rfl⟩ := hl
    simp [tstep, St.withWord, St.nextSnap, hm] at hs
    obtain ⟨_, rfl, _⟩ := hs; exact .cNext hm
  | cCheck H T N =>
    simp [loadOf] at hl
    obtain ⟨rfl, rfl, rfl⟩ := hl
    simp only [tstep] at hs
    by_cases hx : x.v = H.v
    · rw [if_pos (show (s.withWord x .head).head = H.v from hx)] at hs
      simp at hs; obtain ⟨_, rfl, _⟩ := hs
      exact .cCheckT hx
    · rw [if_neg (show ¬ (s.withWord x .head).head = H.v from hx)] at hs
      simp at hs; obtain ⟨_, rfl, _⟩ := hs
      exact .cCheckF hx
  | eHead =>
    cases alt <;> simp [loadOf] at hl <;> obtain ⟨rfl, rfl, rfl⟩ := hl <;>
      simp [tstep, St.withWord, St.headSnap, St.tailSnap] at hs <;> obtain ⟨_, rfl, _⟩ := hs
    · exact .eHead
    · exact .eHead'
  | eTail H =>
    simp [loadOf] at hl
    obtain ⟨rfl, rfl, rfl⟩ := hl
    simp [tstep] at hs
    obtain ⟨_, rfl, _⟩ := hs; exact .eTail
  | eHead2 H =>
    simp [loadOf] at hl
    obtain ⟨rfl, rfl, rfl⟩ := hl
    simp [tstep] at hs
    obtain ⟨_, rfl, _⟩ := hs; exact .eHead2
  | _ => simp [loadOf] at hl

theorem rd_fail {t : Nat} {s s' : St α} {p l o ch x p' e} (hc : casOf p = some (l, o)) (hf : failOf x p = some ch)
    (hs : tstep cfg t (s.withWord x l) p ch = some (s', p', e)) : Rd p l .acquire x p' := by
  cases p with
  | alloc b v a =>
    cases a <;> simp [casOf] at hc
    obtain ⟨rfl, rfl⟩ := hc
    simp [failOf] at hf; subst hf
    simp [tstep, aStep, St.withWord, Heap.poolSnap] at hs
    obtain ⟨_, rfl, _⟩ := hs; exact .acas
  | free k n d =>
    cases d <;> simp [casOf] at hc
    obtain ⟨rfl, rfl⟩ := hc
    simp [failOf] at hf; subst hf
    simp [tstep, dStep, St.withWord, Heap.poolSnap] at hs
    obtain ⟨_, rfl, _⟩ := hs; exact .fcas
  | pCas n T N =>
    simp [casOf] at hc
    obtain ⟨m, hm, rfl, rfl⟩ := hc
    simp [failOf] at hf; subst hf
    simp [tstep] at hs
    obtain ⟨_, rfl, _⟩ := hs; exact .pCas hm
  | swing k T y =>
    simp [casOf] at hc
    obtain ⟨rfl, rfl⟩ := hc
    simp only [failOf] at hf
    split at hf <;> simp at hf
    subst hf
    simp [tstep] at hs
    obtain ⟨_, rfl, _⟩ := hs; exact .swing (by assumption)
  | cCas H y v =>
    simp [casOf] at hc
    obtain ⟨rfl, rfl⟩ := hc
    simp [failOf] at hf; subst hf
    simp [tstep] at hs
    obtain ⟨_, rfl, _⟩ := hs; exact .cCas
  | _ => simp [casOf] at hc

/-- The step function as a relation. -/
inductive WTrans (cfg : Cfg) (rel : Bool) (t : Nat) (w : WSt α) (p : PC α) : WChoice α → WSt α → PC α →
    Option (Event (Op α × View Loc) (Ret α × View Loc)) → Prop where
  | rmw {l o s' p' e} : casOf p = some (l, o) → (w.s.word l).v = o.v → (∀ n ∈ touch p, (w.view t).knows (w.acc n) = true) →
      tstep cfg t w.s p (.base .go) = some (s', p', e) → WTrans cfg rel t w p (.step (.base .go)) (w.rmw t l (touch p) s') p' none
  | racingC {l o n} : casOf p = some (l, o) → (w.s.word l).v = o.v → n ∈ touch p → ¬ (w.view t).knows (w.acc n) = true →
      WTrans cfg rel t w p (.step (.base .go)) (w.plain t [] w.s) .err none
  | racing {ch n} : casOf p = none → n ∈ touch p → ¬ (w.view t).knows (w.acc n) = true →
      WTrans cfg rel t w p (.step ch) (w.plain t [] w.s) .err none
  | store {ch n at' s' p' e} : storeOf p = some (n, at') → (∀ n ∈ touch p, (w.view t).knows (w.acc n) = true) →
      tstep cfg t w.s p ch = some (s', p', e) →
      WTrans cfg rel t w p (.step ch) (w.store t n at' (at' || rel) (touch p) s') p' none
  | garb {H y v} : p = .cData H y → (¬ (w.view t).knows (w.acc y) = true ∨ w.s.heap.data y = none) →
      WTrans cfg rel t w p (.step (.garbage v)) (w.plain t [] w.s) (.cCas H y v) none
  | plain {ch s' p' e} : casOf p = none → loadOf false p = none → storeOf p = none →
      (∀ n ∈ touch p, (w.view t).knows (w.acc n) = true) → ordered w t p ch = true →
      tstep cfg t w.s p ch = some (s', p', e) →
      WTrans cfg rel t w p (.step ch) (w.plain t (touch p) s') p' (e.map (stamp ((w.view t).tick t)))
  | read {alt i l ord p'} : Rd p l ord (w.msg l i).val p' → (w.view t).seen l ≤ i → i ≤ w.top l →
      WTrans cfg rel t w p (.read alt i) (w.recv t l i ord) p' none
  | torn {k i x n f} : tornOf p = some (n, f) → (w.view t).seen (.next n) ≤ k → k ≤ i → i ≤ w.top (.next n) → w.pl n k = true →
      WTrans cfg rel t w p (.torn k i x) (w.recv t (.next n) i .acquire) (f ⟨x, (w.msg (.next n) i).val.ver⟩) none
  | race {n k x} : specOf p = some (n, k) → ¬ (((w.view t).join (w.dep t)).knows (w.acc n) = true ∧
          w.top (.next n) ≤ ((w.view t).join (w.dep t)).seen (.next n)) →
      WTrans cfg rel t w p (.race x) (w.plain t [] w.s) (k x) none
  | skip {p'} : quiet cfg p = some p' → WTrans cfg rel t w p .skip w p' none
  | post : p = .idle → WTrans cfg rel t w p .post
      { w with view := upd w.view t ((w.view t).tick t), posts := w.posts ++ [(w.view t).tick t] } .idle none
  | wait {k v} : p = .idle → w.posts[k]? = some v → WTrans cfg rel t w p (.wait k)
      { w with view := upd w.view t (((w.view t).join v).tick t) } .idle none

theorem wtrans_of_wstep {rel : Bool} {t : Nat} {w : WSt α} {p : PC α} {ch w' p' e}
    (hs : wstep cfg rel t w p ch = some (w', p', e)) : WTrans cfg rel t w p ch w' p' e := by
  cases ch with
  | step ch =>
    simp only [wstep] at hs
    split at hs
    · rename_i l o hc
      split at hs
      · split at hs
        · rename_i hw
          split at hs
          · rename_i hk
            simp only [Option.map_eq_some_iff, Prod.mk.injEq] at hs
            obtain ⟨⟨s', p'', e'⟩, h1, rfl, rfl, rfl⟩ := hs
            exact .rmw hc hw (by simpa using hk) h1
          · rename_i hk
            simp only [Option.some.injEq, Prod.mk.injEq] at hs
            obtain ⟨rfl, rfl, rfl⟩ := hs
            simp only [List.all_eq_true, Classical.not_forall] at hk
            obtain ⟨n, h1, h2⟩ := hk
            exact .racingC hc hw h1 h2
        · simp at hs
      · simp at hs
    · rename_i hc
      split at hs
      · simp at hs
      · rename_i hl
        split at hs
        · rename_i hk
          have hk' : ∀ n ∈ touch p, (w.view t).knows (w.acc n) = true := by simpa using hk
          split at hs
          · rename_i n at' hst
            simp only [Option.map_eq_some_iff, Prod.mk.injEq] at hs
            obtain ⟨⟨s', p'', e'⟩, h1, rfl, rfl, rfl⟩ := hs
            exact .store hst hk' h1
          · rename_i hst
            split at hs
            · rename_i p'' hg
              simp only [Option.some.injEq, Prod.mk.injEq] at hs
              obtain ⟨rfl, rfl, rfl⟩ := hs
              cases p with
              | cData H y =>
                cases ch <;> simp [garbageOf] at hg
                obtain ⟨h1, rfl⟩ := hg
                refine .garb rfl ?_
                cases hb : (w.view t).knows (w.acc y)
                · left; simp
                · right; exact h1 hb
              | _ => simp [garbageOf] at hg
            · split at hs
              · rename_i ho
                simp only [Option.map_eq_some_iff, Prod.mk.injEq] at hs
                obtain ⟨⟨s', p'', e'⟩, h1, rfl, rfl, rfl⟩ := hs
                exact .plain hc hl hst hk' ho h1
              · simp at hs
        · rename_i hk
          simp only [Option.some.injEq, Prod.mk.injEq] at hs
          obtain ⟨rfl, rfl, rfl⟩ := hs
          simp only [List.all_eq_true, Classical.not_forall] at hk
          obtain ⟨n, h1, h2⟩ := hk
          exact .racing hc h1 h2
  | read alt i =>
    simp only [wstep] at hs
    split at hs
    · rename_i l ord ch hr
      split at hs
      · rename_i hi
        simp only [Option.map_eq_some_iff, Prod.mk.injEq] at hs
        obtain ⟨⟨s', p'', e'⟩, h1, rfl, rfl, rfl⟩ := hs
        exact .read (rd_load hr h1) hi.1 hi.2
      · simp at hs
    · split at hs
      · simp at hs
      · rename_i l o hc
        split at hs
        · simp at hs
        · rename_i ch hf
          split at hs
          · rename_i hi
            simp only [Option.map_eq_some_iff, Prod.mk.injEq] at hs
            obtain ⟨⟨s', p'', e'⟩, h1, rfl, rfl, rfl⟩ := hs
            exact .read (rd_fail hc hf h1) hi.1 hi.2
          · simp at hs
  | torn k i x =>
    simp only [wstep] at hs
    split at hs
    · simp at hs
    · rename_i n f hr
      split at hs
      · rename_i hi
        simp only [Option.some.injEq, Prod.mk.injEq] at hs
        obtain ⟨rfl, rfl, rfl⟩ := hs
        exact .torn hr hi.1 hi.2.1 hi.2.2.1 hi.2.2.2
      · simp at hs
  | race x =>
    simp only [wstep] at hs
    split at hs
    · simp at hs
    · rename_i n k hr
      split at hs
      · simp at hs
      · simp only [Option.some.injEq, Prod.mk.injEq] at hs
        obtain ⟨rfl, rfl, rfl⟩ := hs
        exact .race hr (by assumption)
  | skip =>
    simp only [wstep, Option.map_eq_some_iff, Prod.mk.injEq] at hs
    obtain ⟨p'', h1, rfl, rfl, rfl⟩ := hs
    exact .skip h1
  | post =>
    simp only [wstep] at hs
    split at hs
    · simp only [Option.some.injEq, Prod.mk.injEq] at hs
      obtain ⟨rfl, rfl, rfl⟩ := hs
      exact .post rfl
    · simp at hs
  | wait k =>
    simp only [wstep] at hs
    split at hs
    · simp only [Option.some.injEq, Prod.mk.injEq] at hs
      obtain ⟨rfl, rfl, rfl⟩ := hs
      exact .wait rfl (by assumption)
    · simp at hs

theorem quiet_tstep {p p' : PC α} (h : quiet cfg p = some p') (t : Nat) (s : St α) :
    tstep cfg t s p (.base .go) = some (s, p', none) ∧ casOf p = none ∧ loadOf false p = none ∧ storeOf p = none ∧ touch p = [] ∧
      specOf p = none := by
  unfold quiet at h
  split at h
  · split at h <;> simp at h
    rename_i hn
    subst h
    simp only [Bool.and_eq_true, Option.isNone_iff_eq_none] at hn
    simp [tstep, aStep, hn, casOf, loadOf, storeOf, touch, specOf]
  · simp at h
    subst h
    simp [tstep, casOf, loadOf, storeOf, touch, specOf]
  · simp at h

/-! ### The invariant -/

/-- The views in a state. -/
inductive WSt.Has (w : WSt α) : View Loc → Prop where
  | thread (t) : Has w (w.view t)
  | msg (l i) : i ≤ w.top l → Has w (w.msg l i).view
  | post {v} : v ∈ w.posts → Has w v

/-- A view knows everything about node `n` that its next owner needs: all accesses, all messages of its `next`
word, and that it has been popped as often as it was pushed. -/
def kn (acc : Nat → List (Nat × Nat)) (top : Loc → Nat) (gh : Gh) (v : View Loc) (n : Nat) : Prop :=
  v.knows (acc n) = true ∧ top (.next n) ≤ v.seen (.next n) ∧ ∀ i ≤ gh.K, gh.X i = n → i < v.seen .head

theorem kn.mono {acc : Nat → List (Nat × Nat)} {top : Loc → Nat} {gh : Gh} {v v' : View Loc} {n : Nat}
    (h : kn acc top gh v n) (hle : v.Le v') : kn acc top gh v' n :=
  ⟨View.knows.mono h.1 hle, Nat.le_trans h.2.1 (hle.1 _), fun i hi he => Nat.lt_of_lt_of_le (h.2.2 i hi he) (hle.1 _)⟩

/-- The snapshot through which the next step reads speculatively. -/
def specSnap : PC α → Option Snap
  | .alloc _ _ (.test o) => some o
  | _ => none

/-- Who knows what about the nodes. -/
structure OI (cfg : Cfg) (w : WSt α) (pc : Nat → PC α) (g : G) (gh : Gh) : Prop where
  thr : ∀ n t, g.own n = .thr t → kn w.acc w.top gh (w.view t) n
  free : ∀ n, g.own n = .free → kn w.acc w.top gh (w.msg .pool (w.top .pool)).view n
  raw : ∀ n, g.own n = .raw → w.acc n = [] ∧ w.top (.next n) = 0 ∧ w.s.heap.next n = ⟨none, 0⟩ ∧
    w.s.heap.nver n = 0 ∧ ∀ i ≤ gh.K, gh.X i ≠ n
  psn : ∀ i ≤ w.top .pool, PSnap cfg w.s.heap g.F (w.msg .pool i).val
  cur : ∀ i ≤ w.top .pool, ∀ n, (w.msg .pool i).val.v.ptr = some n → (w.msg .pool i).val.ver = w.s.heap.poolVer →
    kn w.acc w.top gh (w.msg .pool i).view n
  spec : ∀ t o n, specSnap (pc t) = some o → o.v.ptr = some n → o.ver = w.s.heap.poolVer →
    kn w.acc w.top gh ((w.view t).join (w.dep t)) n
  strA : ∀ i, w.top .head < i → i ≤ gh.K → (w.msg (.next (gh.X i)) (gh.nu i)).view.knows (w.acc (gh.X i)) = true
  dum : (w.msg .head (w.top .head)).view.knows (w.acc (gh.X (w.top .head))) = true

def PendQ (v : View Loc) (st : QStatus α) (o : Op α) : Prop :=
  ∃ b, st = .pend o b ∧ b.1 ≤ v.seen .head ∧ b.2 ≤ v.seen .tail

def DoneQ (v : View Loc) (st : QStatus α) (r : Ret α) : Prop :=
  ∃ o need, st = .done o r need ∧ need.1 ≤ v.seen .head ∧ need.2 ≤ v.seen .tail

/-- A prepared node. -/
def WPN (w : WSt α) (gh : Gh) (v : View Loc) (l : List Nat) (st : QStatus α) (n : Nat) : Prop :=
  ∃ b x, l = [n] ∧ PendQ v st (.push b x) ∧ w.s.heap.data n = some x ∧ (w.s.heap.next n).ptr = none ∧
    (w.msg (.next n) (w.top (.next n))).view.knows (w.acc n) = true ∧
    (∀ i ≤ gh.K, gh.X i = n → gh.nu i + 1 < w.top (.next n)) ∧ w.pl n (w.top (.next n)) = false

/-- A value read from `tail_`. -/
def TOk (M : Nat) (gh : Gh) (v : View Loc) (T : Snap) : Prop :=
  T = ⟨⟨some (gh.X T.ver), T.ver % M⟩, T.ver⟩ ∧ T.ver ≤ v.seen .tail

/-- A value read from `head_`. -/
def HOk (M : Nat) (gh : Gh) (v : View Loc) (H : Snap) : Prop :=
  H = ⟨⟨some (gh.X H.ver), H.ver % M⟩, H.ver⟩ ∧ H.ver ≤ v.seen .head

/-- The link out of the `j`-th node before and after the next push. -/
def nmsg (w : WSt α) (gh : Gh) (j : Nat) : Snap := (w.msg (.next (gh.X j)) (gh.nu j)).val
def lmsg (w : WSt α) (gh : Gh) (j : Nat) : Snap := (w.msg (.next (gh.X j)) (gh.nu j + 1)).val

def Lk (gh : Gh) (v : View Loc) (j : Nat) : Prop := j < gh.K ∧ gh.nu j + 1 ≤ v.seen (.next (gh.X j))

/-- Local invariant of a thread with view `v`, held nodes `l` and canonical status `st`. -/
def WLocal (cfg : Cfg) (w : WSt α) (F : List Nat) (gh : Gh) (v : View Loc) (l : List Nat) (st : QStatus α) : PC α → Prop
  | .idle => l = [] ∧ st = .idle
  | .alloc b x a => l = [] ∧ PendQ v st (.push b x) ∧ ALocal cfg w.s.heap F a
  | .constr b x n => l = [n] ∧ PendQ v st (.push b x) ∧ w.s.heap.data n = none
  | .nload b x n => l = [n] ∧ PendQ v st (.push b x) ∧ w.s.heap.data n = some x
  | .nstore b x n o => l = [n] ∧ PendQ v st (.push b x) ∧ w.s.heap.data n = some x ∧ w.s.heap.next n = o
  | .pTail n => WPN w gh v l st n
  | .pNext n T => WPN w gh v l st n ∧ TOk cfg.M gh v T
  | .pCheck n T N => WPN w gh v l st n ∧ TOk cfg.M gh v T ∧
      (T.ver < v.seen .tail ∨ N = nmsg w gh T.ver ∨ (N = lmsg w gh T.ver ∧ Lk gh v T.ver))
  | .pCas n T N => WPN w gh v l st n ∧ TOk cfg.M gh v T ∧ N = nmsg w gh T.ver
  | .swing k T y => TOk cfg.M gh v T ∧ Lk gh v T.ver ∧ y = gh.X (T.ver + 1) ∧
      match k with
      | .retryPush n => WPN w gh v l st n
      | .donePush => l = [] ∧ ∃ o, st = .done o (.pushed true) (0, T.ver + 1)
      | .retryPop => l = [] ∧ PendQ v st .pop
  | .cHead => l = [] ∧ PendQ v st .pop
  | .cTail H => l = [] ∧ HOk cfg.M gh v H ∧ ∃ b, st = .pend .pop b ∧ b.1 ≤ H.ver ∧ b.2 ≤ v.seen .tail
  | .cNext H T => l = [] ∧ HOk cfg.M gh v H ∧ TOk cfg.M gh v T ∧
      (∃ b, st = .pend .pop b ∧ b.1 ≤ H.ver ∧ b.2 ≤ T.ver) ∧ (w.msg .head H.ver).view.seen .tail ≤ T.ver
  | .cCheck H T N => l = [] ∧ HOk cfg.M gh v H ∧ TOk cfg.M gh v T ∧
      (∃ b, st = .pend .pop b ∧ b.1 ≤ H.ver ∧ b.2 ≤ T.ver) ∧ (w.msg .head H.ver).view.seen .tail ≤ T.ver ∧
      (H.ver < v.seen .head ∨ (N = nmsg w gh H.ver ∧ T.ver ≤ H.ver) ∨ (N = lmsg w gh H.ver ∧ Lk gh v H.ver))
  | .cData H y => l = [] ∧ HOk cfg.M gh v H ∧ Lk gh v H.ver ∧ y = gh.X (H.ver + 1) ∧ H.ver < v.seen .tail ∧
      PendQ v st .pop
  | .cCas H y x => l = [] ∧ HOk cfg.M gh v H ∧ Lk gh v H.ver ∧ y = gh.X (H.ver + 1) ∧ H.ver < v.seen .tail ∧
      PendQ v st .pop ∧ (H.ver = w.top .head → w.s.heap.data y = some x)
  | .cDestroy n x => l = [n] ∧ DoneQ v st (.popped (some x))
  | .free k n d => l = [n] ∧ w.s.heap.data n = none ∧ DLocal w.s.heap n d ∧
      match k with
      | .pop x => DoneQ v st (.popped (some x))
      | .rsv _ => ∃ j, PendQ v st (.reserve j)
  | .eHead => l = [] ∧ PendQ v st .empty
  | .eTail _ => l = [] ∧ PendQ v st .empty
  | .eHead2 _ => l = [] ∧ PendQ v st .empty
  | .rsv _ => l = [] ∧ ∃ j, PendQ v st (.reserve j)
  | .ret r => l = [] ∧ DoneQ v st r
  | .err => False

/-- The invariant. -/
structure WInv (cfg : Cfg) (C : WConf α) (g : G) (gh : Gh) (c : QC α) : Prop where
  si : SI cfg C.s.s g (c.vals.drop c.nd)
  gl : g.L = (List.range' (C.s.top .head) (gh.K + 1 - C.s.top .head)).map gh.X
  m1 : M1 cfg.M C.s.msg C.s.top C.s.pl gh
  last : ∀ l, (C.s.msg l (C.s.top l)).val = C.s.s.word l
  vg : ∀ v, C.s.Has v → VG C.s.msg C.s.top v
  oi : OI cfg C.s C.pc g gh
  cK : c.vals.length = gh.K
  cnd : c.nd = C.s.top .head
  ctau : ∀ k ≤ C.s.top .head, c.tau k = (C.s.msg .head k).view.seen .tail
  loc : ∀ t, WLocal cfg C.s g.F gh (C.s.view t) (g.held t) (c.status t) (C.pc t)

/-! ### Stability -/

theorem PendQ.mono {v v' : View Loc} {st : QStatus α} {o} (h : PendQ v st o) (hle : v.Le v') : PendQ v' st o := by
  obtain ⟨b, h1, h2, h3⟩ := h
  exact ⟨b, h1, Nat.le_trans h2 (hle.1 _), Nat.le_trans h3 (hle.1 _)⟩

theorem DoneQ.mono {v v' : View Loc} {st : QStatus α} {r} (h : DoneQ v st r) (hle : v.Le v') : DoneQ v' st r := by
  obtain ⟨o, b, h1, h2, h3⟩ := h
  exact ⟨o, b, h1, Nat.le_trans h2 (hle.1 _), Nat.le_trans h3 (hle.1 _)⟩

theorem TOk.mono {M : Nat} {gh : Gh} {v v' : View Loc} {T} (h : TOk M gh v T) (hle : v.Le v') : TOk M gh v' T :=
  ⟨h.1, Nat.le_trans h.2 (hle.1 _)⟩

theorem HOk.mono {M : Nat} {gh : Gh} {v v' : View Loc} {T} (h : HOk M gh v T) (hle : v.Le v') : HOk M gh v' T :=
  ⟨h.1, Nat.le_trans h.2 (hle.1 _)⟩

theorem Lk.mono {gh : Gh} {v v' : View Loc} {j} (h : Lk gh v j) (hle : v.Le v') : Lk gh v' j :=
  ⟨h.1, Nat.le_trans h.2 (hle.1 _)⟩

theorem WPN.mono {w : WSt α} {gh : Gh} {v v' : View Loc} {l st n} (h : WPN w gh v l st n) (hle : v.Le v') :
    WPN w gh v' l st n := by
  obtain ⟨b, x, h1, h2, h3⟩ := h
  exact ⟨b, x, h1, h2.mono hle, h3⟩

/-- What a thread with held nodes `l` can rely on when another thread makes a step. -/
structure WRely (w : WSt α) (gh : Gh) (F : List Nat) (w' : WSt α) (gh' : Gh) (F' : List Nat) (l : List Nat) : Prop where
  ext : Ext w.msg w.top gh w'.msg w'.top gh'
  nalloc : w.s.heap.nalloc ≤ w'.s.heap.nalloc
  pver : w.s.heap.poolVer ≤ w'.s.heap.poolVer
  pF : w'.s.heap.poolVer = w.s.heap.poolVer → ∀ n ∈ F, n ∈ F' ∧ (w'.s.heap.next n).ptr = (w.s.heap.next n).ptr
  next : ∀ n ∈ l, w'.s.heap.next n = w.s.heap.next n
  data : ∀ n ∈ l, w'.s.heap.data n = w.s.heap.data n
  held : ∀ n ∈ l, w'.acc n = w.acc n ∧ w'.top (.next n) = w.top (.next n) ∧ w'.pl n = w.pl n ∧
    ∀ i ≤ gh'.K, gh'.X i = n → i ≤ gh.K
  dat : w'.top .head = w.top .head → w.top .head < gh.K →
    w'.s.heap.data (gh.X (w.top .head + 1)) = w.s.heap.data (gh.X (w.top .head + 1))

section
variable {w w' : WSt α} {gh gh' : Gh} {F F' l : List Nat} {v : View Loc}

theorem Ext.tok {M : Nat} {T} (he : Ext w.msg w.top gh w'.msg w'.top gh') (hK : v.seen .tail ≤ gh.K) (h : TOk M gh v T) :
    TOk M gh' v T := by
  refine ⟨?_, h.2⟩
  rw [he.X T.ver (Nat.le_trans h.2 hK)]; exact h.1

theorem Ext.hok {M : Nat} {T} (he : Ext w.msg w.top gh w'.msg w'.top gh') (hK : v.seen .head ≤ gh.K) (h : HOk M gh v T) :
    HOk M gh' v T := by
  refine ⟨?_, h.2⟩
  rw [he.X T.ver (Nat.le_trans h.2 hK)]; exact h.1

theorem Ext.lk {j} (he : Ext w.msg w.top gh w'.msg w'.top gh') (h : Lk gh v j) : Lk gh' v j := by
  refine ⟨Nat.lt_of_lt_of_le h.1 he.K, ?_⟩
  rw [he.X j (Nat.le_of_lt h.1), he.nu j (Nat.le_of_lt h.1)]; exact h.2

theorem Ext.nmsg {M pl j} (he : Ext w.msg w.top gh w'.msg w'.top gh') (hm : M1 M w.msg w.top pl gh) (hj : j ≤ gh.K) :
    nmsg w' gh' j = nmsg w gh j := by
  simp only [Queue.nmsg]
  rw [he.X j hj, he.nu j hj, he.msg _ _ (hm.nul j hj).1]

theorem Ext.lmsg {M pl j} (he : Ext w.msg w.top gh w'.msg w'.top gh') (hm : M1 M w.msg w.top pl gh) (hj : j < gh.K) :
    lmsg w' gh' j = lmsg w gh j := by
  simp only [Queue.lmsg]
  rw [he.X j (Nat.le_of_lt hj), he.nu j (Nat.le_of_lt hj), he.msg _ _ (hm.lnk j hj).1]

theorem WRely.wpn {st n} (hr : WRely w gh F w' gh' F' l) (h : WPN w gh v l st n) : WPN w' gh' v l st n := by
  obtain ⟨b, x, rfl, h2, h3, h4, h5, h6, h7⟩ := h
  have hn : n ∈ [n] := by simp
  obtain ⟨h8, h9, h10, h11⟩ := hr.held n hn
  refine ⟨b, x, rfl, h2, by rw [hr.data n hn]; exact h3, by rw [hr.next n hn]; exact h4, ?_, ?_, ?_⟩
  · rw [h8, h9, hr.ext.msg _ _ (Nat.le_refl _)]; exact h5
  · intro i hi he
    have hi' := h11 i hi he
    rw [h9, hr.ext.nu i hi']
    rw [hr.ext.X i hi'] at he
    exact h6 i hi' he
  · rw [h9, h10]; exact h7

theorem WRely.stable {M pl st p} (hr : WRely w gh F w' gh' F' l) (hm : M1 M w.msg w.top pl gh) (hv : VG w.msg w.top v)
    (hl : WLocal cfg w F gh v l st p) : WLocal cfg w' F' gh' v l st p := by
  have hK : v.seen .tail ≤ gh.K := Nat.le_trans (hv.1 .tail) hm.tK
  have hK' : v.seen .head ≤ gh.K := Nat.le_trans (hm.C hv) hK
  have he := hr.ext
  have hhead : ∀ k, k ≤ v.seen .head → w'.msg .head k = w.msg .head k := fun k hk => he.msg _ _ (Nat.le_trans hk (hv.1 _))
  cases p with
  | alloc b x a => exact ⟨hl.1, hl.2.1, hl.2.2.mono hr.nalloc hr.pver hr.pF⟩
  | constr b x n => exact ⟨hl.1, hl.2.1, by rw [hr.data n (by simp [hl.1])]; exact hl.2.2⟩
  | nload b x n => exact ⟨hl.1, hl.2.1, by rw [hr.data n (by simp [hl.1])]; exact hl.2.2⟩
  | nstore b x n o =>
    exact ⟨hl.1, hl.2.1, by rw [hr.data n (by simp [hl.1])]; exact hl.2.2.1,
      by rw [hr.next n (by simp [hl.1])]; exact hl.2.2.2⟩
  | pTail n => exact hr.wpn hl
  | pNext n T => exact ⟨hr.wpn hl.1, he.tok hK hl.2⟩
  | pCheck n T N =>
    obtain ⟨h1, h2, h3⟩ := hl
    refine ⟨hr.wpn h1, he.tok hK h2, ?_⟩
    rcases h3 with h3 | h3 | ⟨h3, h4⟩
    · exact .inl h3
    · exact .inr (.inl (by rw [he.nmsg hm (Nat.le_trans h2.2 hK)]; exact h3))
    · exact .inr (.inr ⟨by rw [he.lmsg hm h4.1]; exact h3, he.lk h4⟩)
  | pCas n T N =>
    obtain ⟨h1, h2, h3⟩ := hl
    exact ⟨hr.wpn h1, he.tok hK h2, by rw [he.nmsg hm (Nat.le_trans h2.2 hK)]; exact h3⟩
  | swing k T y =>
    obtain ⟨h1, h2, h3, h4⟩ := hl
    refine ⟨he.tok hK h1, he.lk h2, by rw [he.X _ h2.1]; exact h3, ?_⟩
    cases k with
    | retryPush n => exact hr.wpn h4
    | donePush => exact h4
    | retryPop => exact h4
  | cTail H => exact ⟨hl.1, he.hok hK' hl.2.1, hl.2.2⟩
  | cNext H T =>
    obtain ⟨h1, h2, h3, h4, h5⟩ := hl
    exact ⟨h1, he.hok hK' h2, he.tok hK h3, h4, by rw [hhead _ h2.2]; exact h5⟩
  | cCheck H T N =>
    obtain ⟨h1, h2, h3, h4, h5, h6⟩ := hl
    refine ⟨h1, he.hok hK' h2, he.tok hK h3, h4, by rw [hhead _ h2.2]; exact h5, ?_⟩
    rcases h6 with h6 | ⟨h6, h7⟩ | ⟨h6, h7⟩
    · exact .inl h6
    · exact .inr (.inl ⟨by rw [he.nmsg hm (Nat.le_trans h2.2 hK')]; exact h6, h7⟩)
    · exact .inr (.inr ⟨by rw [he.lmsg hm h7.1]; exact h6, he.lk h7⟩)
  | cData H y =>
    obtain ⟨h1, h2, h3, h4, h5⟩ := hl
    exact ⟨h1, he.hok hK' h2, he.lk h3, by rw [he.X _ h3.1]; exact h4, h5⟩
  | cCas H y x =>
    obtain ⟨h1, h2, h3, h4, h5, h6, h7⟩ := hl
    refine ⟨h1, he.hok hK' h2, he.lk h3, by rw [he.X _ h3.1]; exact h4, h5, h6, fun hh => ?_⟩
    have h8 := Nat.le_trans h2.2 (hv.1 .head)
    have h9 := he.top .head
    have h10 : H.ver = w.top .head := by omega
    rw [h4, h10, hr.dat (by omega) (by rw [← h10]; exact h3.1), ← h10, ← h4]
    exact h7 h10
  | free k n d =>
    obtain ⟨rfl, h2, h3, h4⟩ := hl
    refine ⟨rfl, by rw [hr.data n (by simp)]; exact h2, ?_, h4⟩
    cases d <;> simp_all [DLocal, hr.next n (by simp)]
  | _ => exact hl

end

end Verif.Queue
