import Verif.Queue.WeakText
import Verif.Queue.TextSim
import Verif.Queue.WeakSim

/-!
# Queue: the program text under release/acquire memory refines the machine of `Queue/Weak` (C63)

No further code of /repo is modelled here.
-/

namespace Verif.Queue.Code
open Lin Text

variable {α : Type} {R : Rep}

/-! ### Steps of the machine on pairs -/

/-- Between the load of a link and the test whether the word it was reached from has changed. -/
def isCheck : PC α → Bool
  | .pCheck _ _ _ => true
  | .cCheck _ _ _ => true
  | _ => false

theorem tstep_not_check {cfg : Cfg} {t : Nat} {s s' : St α} {p p' : PC α} {ch e} (h : tstep cfg t s p ch = some (s', p', e))
    (hl : ∀ n T, p = .pNext n T → T.v.ptr = none) (hl' : ∀ H T, p = .cNext H T → H.v.ptr = none) : isCheck p' = false := by
  cases p with
  | idle =>
    cases ch with
    | base b =>
      cases b <;> simp [tstep] at h
      obtain ⟨h, -⟩ := h
      rename_i o
      cases o <;> simp [start] at h
      · subst h; rfl
      · subst h; rfl
      · subst h; rfl
      · obtain ⟨-, rfl⟩ := h; rfl
    | _ => simp [tstep] at h
  | alloc b v a =>
    cases ch with
    | base c =>
      simp only [tstep] at h
      split at h <;> cases h <;> rfl
    | _ => simp [tstep] at h
  | free k n d =>
    cases ch with
    | base c =>
      simp only [tstep] at h
      split at h <;> cases h <;> first | rfl | (cases k <;> rfl)
    | _ => simp [tstep] at h
  | pNext n T =>
    have h1 := hl n T rfl
    cases ch with
    | base c => cases c <;> simp [tstep, h1] at h <;> obtain ⟨-, rfl, -⟩ := h <;> rfl
    | torn x => simp [tstep, h1] at h; obtain ⟨-, rfl, -⟩ := h; rfl
    | garbage x => simp [tstep, h1] at h; obtain ⟨-, rfl, -⟩ := h; rfl
  | cNext n T =>
    have h1 := hl' n T rfl
    cases ch with
    | base c => cases c <;> simp [tstep, h1] at h <;> obtain ⟨-, rfl, -⟩ := h <;> rfl
    | torn x => simp [tstep, h1] at h; obtain ⟨-, rfl, -⟩ := h; rfl
    | garbage x => simp [tstep, h1] at h; obtain ⟨-, rfl, -⟩ := h; rfl
  | pCheck n T N =>
    cases ch with
    | base c =>
      cases c <;> simp [tstep] at h
      split at h <;> cases h
      · unfold pBranch; split <;> rfl
      · rfl
    | _ => simp [tstep] at h
  | cCheck n T N =>
    cases ch with
    | base c =>
      cases c <;> simp [tstep] at h
      split at h <;> cases h
      · unfold cBranch; split <;> split <;> rfl
      · rfl
    | _ => simp [tstep] at h
  | swing k T y =>
    cases ch with
    | base c => cases c <;> simp [tstep] at h; obtain ⟨-, rfl, -⟩ := h; cases k <;> rfl
    | _ => simp [tstep] at h
  | rsv k =>
    cases ch with
    | base c => cases k <;> cases c <;> simp [tstep] at h <;> obtain ⟨-, rfl, -⟩ := h <;> rfl
    | _ => simp [tstep] at h
  | cData H y =>
    cases ch with
    | base c =>
      cases c <;> simp [tstep] at h
      · split at h
        · cases h; rfl
        · split at h <;> cases h; rfl
      · obtain ⟨-, rfl, -⟩ := h; rfl
    | garbage x => simp [tstep] at h; obtain ⟨-, -, rfl, -⟩ := h; rfl
    | torn x => simp [tstep] at h
  | _ =>
    cases ch with
    | base c =>
      cases c <;> simp [tstep] at h <;>
        first
        | (obtain ⟨-, rfl, -⟩ := h; rfl)
        | (split at h <;> (try split at h) <;> (try cases h) <;> rfl)
    | _ => simp [tstep] at h

theorem tstep_garbage {cfg : Cfg} {t : Nat} {s s' : St α} {p p' : PC α} {v e} (h : tstep cfg t s p (.garbage v) = some (s', p', e))
    (hl : loadOf false p = none) (hn : ∀ n T, p = .pNext n T → T.v.ptr ≠ none) (hn' : ∀ H T, p = .cNext H T → H.v.ptr ≠ none) :
    ∃ H y, p = .cData H y := by
  cases p with
  | cData H y => exact ⟨H, y, rfl⟩
  | pNext n T =>
    cases hT : T.v.ptr with
    | none => exact absurd hT (hn n T rfl)
    | some x => simp [loadOf, hT] at hl
  | cNext n T =>
    cases hT : n.v.ptr with
    | none => exact absurd hT (hn' n T rfl)
    | some x => simp [loadOf, hT] at hl
  | _ => simp [tstep] at h

/-- Loads do not change the memory. -/
theorem load_same {cfg : Cfg} {t : Nat} {s s' : St α} {alt p p' l ord ch e} (hl : loadOf alt p = some (l, ord, ch))
    (hs : tstep cfg t s p ch = some (s', p', e)) : s' = s ∧ e = none := by
  cases p with
  | alloc b v a =>
    cases a <;> simp [loadOf] at hl
    obtain ⟨rfl, rfl, rfl⟩ := hl
    simp [tstep, aStep] at hs
    exact ⟨hs.1.symm, hs.2.2.symm⟩
  | free k n d =>
    cases d <;> simp [loadOf] at hl
    obtain ⟨rfl, rfl, rfl⟩ := hl
    simp [tstep, dStep] at hs
    exact ⟨hs.1.symm, hs.2.2.symm⟩
  | pNext n T | cNext T n =>
    simp [loadOf] at hl
    obtain ⟨x, h1, rfl, rfl, rfl⟩ := hl
    simp [tstep, h1] at hs
    exact ⟨hs.1.symm, hs.2.2.symm⟩
  | pCheck n T N | cCheck n T N =>
    simp [loadOf] at hl
    obtain ⟨rfl, rfl, rfl⟩ := hl
    simp only [tstep] at hs
    split at hs <;> cases hs <;> exact ⟨rfl, rfl⟩
  | eHead =>
    cases alt <;> simp [loadOf] at hl <;> obtain ⟨rfl, rfl, rfl⟩ := hl <;> simp [tstep] at hs <;> exact ⟨hs.1.symm, hs.2.2.symm⟩
  | _ =>
    simp [loadOf] at hl <;> obtain ⟨rfl, rfl, rfl⟩ := hl <;> simp [tstep] at hs <;> exact ⟨hs.1.symm, hs.2.2.symm⟩

theorem aCas_nalloc {cfg : Cfg} {b : Bool} {h h' : Heap α} {o nx r} {c : Choice (Op α)} (hs : aStep cfg b h (.cas o nx) c = some (h', r)) :
    h'.nalloc = h.nalloc := by
  cases c <;> simp only [aStep, reduceCtorEq] at hs
  · split at hs
    · split at hs <;> cases hs; rfl
    · cases hs; rfl
  · cases hs; rfl

theorem dStep_nalloc {h h' : Heap α} {n d r} {c : Choice (Op α)} (hs : dStep h n d c = some (h', r)) : h'.nalloc = h.nalloc := by
  cases d <;> cases c <;> simp only [dStep, reduceCtorEq] at hs
  · cases hs; rfl
  · cases hs; rfl
  · split at hs <;> cases hs <;> rfl
  · cases hs; rfl

/-- Compare-exchanges and stores do not allocate. -/
theorem nalloc_same {cfg : Cfg} {t : Nat} {s s' : St α} {p p' ch e} (hc : (casOf p).isSome ∨ (storeOf p).isSome)
    (hs : tstep cfg t s p ch = some (s', p', e)) : s'.heap.nalloc = s.heap.nalloc := by
  cases p with
  | alloc b v a =>
    cases a <;> simp [casOf, storeOf] at hc
    cases ch with
    | base c =>
      simp only [tstep] at hs
      split at hs <;> cases hs <;> exact aCas_nalloc (by assumption)
    | _ => simp [tstep] at hs
  | free k n d =>
    cases ch with
    | base c =>
      simp only [tstep] at hs
      split at hs <;> cases hs <;> exact dStep_nalloc (by assumption)
    | _ => simp [tstep] at hs
  | pCas n T N =>
    cases ch with
    | base c =>
      cases c <;> simp only [tstep, reduceCtorEq] at hs
      · split at hs
        · cases hs; rfl
        · split at hs <;> cases hs <;> rfl
      · cases hs; rfl
    | _ => simp [tstep] at hs
  | swing k T y =>
    cases ch with
    | base c =>
      cases c <;> simp [tstep] at hs
      obtain ⟨rfl, -⟩ := hs
      unfold St.swingTail
      split <;> rfl
    | _ => simp [tstep] at hs
  | cCas H y v =>
    cases ch with
    | base c =>
      cases c <;> simp only [tstep, reduceCtorEq] at hs
      · split at hs
        · split at hs <;> cases hs; rfl
        · cases hs; rfl
      · cases hs; rfl
    | _ => simp [tstep] at hs
  | nstore b v n o =>
    cases ch with
    | base c =>
      cases c <;> simp [tstep] at hs
      obtain ⟨rfl, -⟩ := hs
      rfl
    | _ => simp [tstep] at hs
  | _ => simp [casOf, storeOf] at hc

/-! ### Corresponding states -/

/-- Messages that correspond to each other. -/
structure MsgRel (R : Rep) (N : Nat) (o : Snap) (x : SSnap R.K) : Prop where
  val : x.v = R.enc o.v
  ver : x.ver = o.ver
  ok : R.Ok N o.v

theorem MsgRel.mono {N N' : Nat} {o : Snap} {x : SSnap R.K} (h : MsgRel R N o x) (hN : N ≤ N') : MsgRel R N' o x :=
  ⟨h.val, h.ver, h.ok.mono hN⟩

/-- `next` words of existing nodes, and the other atomic objects. -/
def Exists (N : Nat) (l : Queue.Loc) : Prop := ∀ n, l = .next n → n < N

/-- Shared memories that correspond to each other. -/
structure RaRel (R : Rep) (v : WSt α) (w : RaSt R α) : Prop where
  st : StRel R v.s w.s
  top : w.top = v.top
  view : w.view = v.view
  dep : w.dep = v.dep
  acc : w.acc = v.acc
  posts : w.posts = v.posts
  pl : w.pl = v.pl
  mview : ∀ l i, (w.msg l i).view = (v.msg l i).view
  mval : ∀ l, Exists v.s.heap.nalloc l → ∀ i ≤ v.top l, MsgRel R v.s.heap.nalloc (v.msg l i).val (w.msg l i).val

theorem word_rel {s : St α} {w : SSt R.K α} (h : StRel R s w) {l : Queue.Loc} (hl : Exists s.heap.nalloc l) :
    MsgRel R s.heap.nalloc (s.word l) (word w l) := by
  cases l with
  | head => exact ⟨h.head, h.headVer, h.okHead⟩
  | tail => exact ⟨h.tail, h.tailVer, h.okTail⟩
  | pool => exact ⟨h.mem.pool, h.mem.poolVer, h.mem.okPool⟩
  | next n => exact ⟨h.mem.next n (hl n rfl), congrFun h.mem.nver n, h.mem.okNext n (hl n rfl)⟩

theorem RaRel.plain {v : WSt α} {w : RaSt R α} (h : RaRel R v w) (t : Nat) (ns : List Nat) {s' : St α} {w' : SSt R.K α} (hs : StRel R s' w')
    (hg : v.s.heap.nalloc ≤ s'.heap.nalloc)
    (hn : ∀ n, v.s.heap.nalloc ≤ n → n < s'.heap.nalloc → v.top (.next n) = 0 ∧ (v.msg (.next n) 0).val = s'.word (.next n)) :
    RaRel R (v.plain t ns s') (w.plain t ns w') where
  st := hs
  top := h.top
  view := by simp only [RaSt.plain, WSt.plain, h.view]
  dep := h.dep
  acc := by
    funext n
    simp only [RaSt.plain, WSt.plain, WSt.touched, newNode, h.view, h.acc, h.st.mem.nalloc, hs.mem.nalloc]
  posts := h.posts
  pl := h.pl
  mview l i := by
    cases l <;> simp only [RaSt.plain, WSt.plain, h.mview]
    split
    · rfl
    · exact h.mview _ _
  mval l hl i hi := by
    simp only [WSt.plain] at hl hi ⊢
    by_cases hx : Exists v.s.heap.nalloc l
    · have := (h.mval l hx i hi).mono hg
      cases l <;> try exact this
      rename_i n
      have h1 := hx n rfl
      simp only [RaSt.plain, newNode, h.st.mem.nalloc]
      rw [if_neg (by omega)]
      exact this
    · have : ∃ n, l = .next n ∧ ¬ n < v.s.heap.nalloc := by simpa [Exists] using hx
      obtain ⟨n, rfl, h1⟩ := this
      obtain ⟨h2, h3⟩ := hn n (by omega) (hl n rfl)
      have h4 : i = 0 := by omega
      subst h4
      have h5 : newNode w.s w' n := ⟨by rw [h.st.mem.nalloc]; omega, by rw [hs.mem.nalloc]; exact hl n rfl⟩
      simp only [RaSt.plain, if_pos h5, h3]
      exact word_rel hs hl

theorem RaRel.same {v : WSt α} {w : RaSt R α} (h : RaRel R v w) (t : Nat) (ns : List Nat) : RaRel R (v.plain t ns v.s) (w.plain t ns w.s) :=
  h.plain t ns h.st (Nat.le_refl _) (fun n h1 h2 => by omega)

theorem RaRel.rmwView {v : WSt α} {w : RaSt R α} (h : RaRel R v w) (t : Nat) (l : Queue.Loc) : w.rmwView t l = v.rmwView t l := by
  simp only [RaSt.rmwView, WSt.rmwView, h.view, h.mview, h.top]

theorem RaRel.touched {v : WSt α} {w : RaSt R α} (h : RaRel R v w) (t : Nat) (ns : List Nat) {s' : St α}
    (hn : s'.heap.nalloc = v.s.heap.nalloc) : w.touched t ns = v.touched t ns s' := by
  funext n
  have : (v.s.heap.nalloc ≤ n ∧ n < v.s.heap.nalloc) ↔ False := ⟨fun h => by omega, False.elim⟩
  simp only [RaSt.touched, WSt.touched, hn, this, or_false, h.view, h.acc]

theorem RaRel.rmw {v : WSt α} {w : RaSt R α} (h : RaRel R v w) (t : Nat) {lc : Queue.Loc} (hlc : Exists v.s.heap.nalloc lc) (ns : List Nat) {s' : St α}
    {w' : SSt R.K α} (hs : StRel R s' w') (hn : s'.heap.nalloc = v.s.heap.nalloc) : RaRel R (v.rmw t lc ns s') (w.rmw t lc ns w') where
  st := hs
  top := by simp only [RaSt.rmw, WSt.rmw, h.top]
  view := by simp only [RaSt.rmw, WSt.rmw, h.view, h.rmwView]
  dep := h.dep
  acc := by simp only [RaSt.rmw, WSt.rmw]; exact h.touched t ns hn
  posts := h.posts
  pl := h.pl
  mview l i := by
    simp only [RaSt.rmw, WSt.rmw, h.rmwView, h.top, upd_apply]
    by_cases hl : l = lc
    · subst hl
      by_cases hi : i = v.top l + 1
      · simp [hi]
      · simp [hi, h.mview]
    · simp [hl, h.mview]
  mval l hl i hi := by
    simp only [RaSt.rmw, WSt.rmw, h.top, upd_apply, hn] at hl hi ⊢
    by_cases he : l = lc
    · subst he
      by_cases hi' : i = v.top l + 1
      · have := word_rel hs (l := l) (by rw [hn]; exact hl)
        rw [hn] at this
        simpa [hi'] using this
      · have : i ≤ v.top l := by simp at hi; omega
        simpa [hi', upd_apply] using h.mval l hl i this
    · simp [he] at hi
      simpa [he] using h.mval l hl i hi

theorem RaRel.store {v : WSt α} {w : RaSt R α} (h : RaRel R v w) (t n : Nat) (at' rel : Bool) (ns : List Nat) {s' : St α} {w' : SSt R.K α}
    (hs : StRel R s' w') (hn : s'.heap.nalloc = v.s.heap.nalloc) : RaRel R (v.store t n at' rel ns s') (w.store t n at' rel ns w') := by
  have hv : w.storeView t (.next n) = v.storeView t (.next n) := by simp only [RaSt.storeView, WSt.storeView, h.view, h.top]
  refine ⟨hs, ?_, ?_, h.dep, ?_, h.posts, ?_, fun l i => ?_, fun l hl i hi => ?_⟩
  · simp only [RaSt.store, WSt.store, h.top]
  · simp only [RaSt.store, WSt.store, h.view, hv]
  · simp only [RaSt.store, WSt.store]; exact h.touched t ns hn
  · simp only [RaSt.store, WSt.store, h.pl, h.top]
  · simp only [RaSt.store, WSt.store, hv, h.top, upd_apply]
    by_cases hl : l = .next n
    · subst hl
      by_cases hi : i = v.top (.next n) + 1
      · simp [hi]
      · simp [hi, h.mview]
    · simp [hl, h.mview]
  · simp only [RaSt.store, WSt.store, h.top, upd_apply, hn] at hl hi ⊢
    by_cases he : l = .next n
    · subst he
      by_cases hi' : i = v.top (.next n) + 1
      · have := word_rel hs (l := .next n) (by rw [hn]; exact hl)
        rw [hn] at this
        simpa [hi'] using this
      · have : i ≤ v.top (.next n) := by simp at hi; omega
        simpa [hi', upd_apply] using h.mval _ hl i this
    · simp [he] at hi
      simpa [he] using h.mval l hl i hi

theorem RaRel.recv {v : WSt α} {w : RaSt R α} (h : RaRel R v w) (t : Nat) (l : Queue.Loc) (i : Nat) (ord : Order) :
    RaRel R (v.recv t l i ord) (w.recv t l i ord) where
  st := h.st
  top := h.top
  view := by
    have : w.readView t l i ord = v.readView t l i ord := by
      cases ord <;> simp only [RaSt.readView, WSt.readView, h.view, h.mview]
    simp only [RaSt.recv, WSt.recv, this, h.view]
  dep := by cases ord <;> simp only [RaSt.recv, WSt.recv, h.dep, h.mview]
  acc := h.acc
  posts := h.posts
  pl := h.pl
  mview := h.mview
  mval := h.mval

/-- What the machine of `Queue/Weak` takes a compare-exchange for. -/
def CasAgrees (R : Rep) (w : SSt R.K α) (s : St α) (p : PC α) (l : Loc R.K α) (a : LAcc R α) (x : Obj) (won : Loc R.K α → Bool) : Prop :=
  (∀ alt, loadOf alt p = none) ∧ ∃ lc o, locOf x = some lc ∧ casOf p = some (lc, o) ∧ Exists s.heap.nalloc lc ∧
    ∀ t ch s' l' f, a.run t w l ch = some (s', l', f) → won l' = true → ch = .go ∧ (s.word lc).v = o.v

/-- What the machine of `Queue/Weak` takes the next access for. -/
def Agrees (R : Rep) (w : SSt R.K α) (s : St α) (p : PC α) (q : SPC R.K α) (l : Loc R.K α) (a : LAcc R α) :
    Kind (Loc R.K α) (SChoice R.K (Op α) α) → Prop
  | .plain ns => casOf p = none ∧ loadOf false p = none ∧ storeOf p = none ∧ touch p = ns ∧ ∀ H y, p ≠ .cData H y
  | .load x ord => casOf p = none ∧ ∃ lc, locOf x = some lc ∧ Exists s.heap.nalloc lc ∧ ∀ alt, loadOf alt p = some (lc, ord, .base .go)
  | .first x y ord => p = .eHead ∧ x = .head ∧ y = .tail ∧ ord = .acquire
  | .cas x won => touch p = [] ∧ (∀ x, failOf x p = some (.base .spur)) ∧ CasAgrees R w s p l a x won
  | .casTaking x won ns => touch p = ns ∧ (∀ x, failOf x p = some (.base .spur)) ∧ CasAgrees R w s p l a x won
  | .casStrong x won => touch p = [] ∧ CasAgrees R w s p l a x won ∧ ∃ k T y, q = .swing k T y ∧
      ∀ t s s' l' f, a.run t s l .go = some (s', l', f) → won l' = false → s.tail ≠ T.v
  | .store n at' ns => casOf p = none ∧ loadOf false p = none ∧ storeOf p = some (n, at') ∧ touch p = ns
  | .spec n _ => ∃ b v o, p = .alloc b v (.test o) ∧ o.v.ptr = some n
  | .copy n _ => ∃ H, p = .cData H n

theorem kind_agrees (hf : R.Faithful) {s : St α} {w : SSt R.K α} (hs : StRel R s w) {l : Loc R.K α} {a : LAcc R α} {k p q}
    (hat : At l (.stm (.acc a) :: k) q) (hp : PCAt R s p q) (hT : ∀ n T, p = .pNext n T → T.v.ptr ≠ none)
    (hH : ∀ H T, p = .cNext H T → H.v.ptr ≠ none) : Agrees R w s p q l a (a.kind l) := by
  have hL := hs.mem.limit
  have hcas' : ∀ {removes} {o : Snap}, SnapRel R s.heap.nalloc s.heap.poolVer o l.fl.old_pool → ∀ t ch s' l' f,
      ((port R α).casPool (O := Op α) removes).run t w l ch = some (s', l', f) → l'.fl.cas = true →
      ch = .go ∧ (s.word .pool).v = o.v := by
    intro removes o ho t ch s' l' f hr hw
    simp only [Port.casPool, Port.acc, port] at hr
    cases ch <;> simp only [Option.map_none, Option.map_some, reduceCtorEq] at hr
    · by_cases he : w.mem.pool = l.fl.old_pool.v
      · refine ⟨rfl, ?_⟩
        rw [hs.mem.pool, ho.val] at he
        exact (hf.eq_iff (hs.mem.okPool.mono hL) (ho.ok.mono hL)).1 he
      · erw [if_neg he] at hr; cases hr; cases hw
    · cases hr; cases hw
  have hpool : Exists s.heap.nalloc .pool := by intro n h; cases h
  have hhead : Exists s.heap.nalloc .head := by intro n h; cases h
  have htail : Exists s.heap.nalloc .tail := by intro n h; cases h
  generalize hk : Item.stm (.acc a) :: k = K at hat
  cases hat with
  | alloc hc ha =>
    subst hk
    cases hp with
    | @alloc _ _ x _ h2 =>
      cases ha with
      | load => cases x <;> simp only [ARel] at h2; exact ⟨rfl, .pool, rfl, hpool, fun _ => rfl⟩
      | os => cases x <;> simp only [ARel] at h2; exact ⟨rfl, rfl, rfl, rfl, by simp⟩
      | @read o n ho hn =>
        cases x <;> simp only [ARel] at h2
        rename_i o'
        have h3 : o'.v.ptr = some n := by rw [← hn, h2.val, hf.node (h2.ok.mono hL)]
        rw [show (port R α).readLink.kind l = .spec n _ by simp only [Port.readLink, Port.acc, ho, hn]; rfl]
        exact ⟨_, _, o', rfl, h3⟩
      | @cas o z n ho hn hz =>
        cases x <;> simp only [ARel] at h2
        subst ho
        exact ⟨rfl, fun _ => rfl, fun _ => rfl, .pool, _, rfl, rfl, hpool, hcas' h2.1⟩
  | free hc hd =>
    subst hk
    cases hp with
    | @free _ _ x _ h1 h2 h3 =>
      cases hd with
      | load => cases x <;> simp only [DRel] at h3; exact ⟨rfl, .pool, rfl, hpool, fun _ => rfl⟩
      | @set o hn =>
        cases x <;> simp only [DRel] at h3
        rw [show (port R α).setLink.kind l = .store _ false [_] by simp only [Port.setLink, Port.acc, hn]; rfl]
        exact ⟨rfl, rfl, rfl, rfl⟩
      | cas hn ho =>
        cases x <;> simp only [DRel] at h3
        subst ho
        exact ⟨rfl, fun _ => rfl, fun _ => rfl, .pool, _, rfl, rfl, hpool, hcas' h3⟩
  | fin => simp at hk
  | constr hc hn => cases hk; cases hp; exact ⟨rfl, rfl, rfl, by simp [touch, port, hn], by simp⟩
  | nload hn =>
    cases hk
    cases hp with
    | nload b v h1 =>
      simp only [ctorLoad, hn]
      refine ⟨rfl, _, rfl, ?_, fun _ => rfl⟩
      rintro m h; cases h; exact h1
  | nstore hn => cases hk; cases hp; simp only [ctorStore, hn]; exact ⟨rfl, rfl, rfl, rfl⟩
  | pTail | pCheck | cTail | eTail => cases hk; cases hp; exact ⟨rfl, .tail, rfl, htail, fun _ => rfl⟩
  | cHead | cCheck | eHead2 => cases hk; cases hp; exact ⟨rfl, .head, rfl, hhead, fun _ => rfl⟩
  | pNext h1 h2 h3 h4 =>
    cases hk
    cases hp with
    | @pNext _ T _ h5 h6 =>
      cases hx : T.v.ptr with
      | none => exact absurd hx (hT _ _ rfl)
      | some x =>
        rw [Rep.node_snap hf h6 hL, hx] at h4
        simp only [loadNext, h4]
        refine ⟨rfl, .next x, rfl, ?_, fun _ => by simp [loadOf, hx]⟩
        rintro m h; cases h; exact h6.ok.1 _ hx
  | cNext h1 h2 h3 =>
    cases hk
    cases hp with
    | @cNext T _ _ _ h5 h6 =>
      cases hx : T.v.ptr with
      | none => exact absurd hx (hH _ _ rfl)
      | some x =>
        rw [Rep.node_snap hf h5 hL, hx] at h2
        simp only [loadNext, h2]
        refine ⟨rfl, .next x, rfl, ?_, fun _ => by simp [loadOf, hx]⟩
        rintro m h; cases h; exact h5.ok.1 _ hx
  | @pCas _ _ _ _ x h1 h2 h3 h4 h5 h6 h7 =>
    cases hk
    cases hp with
    | @pCas n T _ N _ h8 h9 h10 =>
      rw [Rep.node_snap hf h9 hL] at h4
      simp only [casNext, h5]
      subst h6
      obtain ⟨h11, h10⟩ := h10
      obtain ⟨h12, h13⟩ := h10.resolve_right id
      refine ⟨rfl, fun _ => rfl, fun _ => rfl, .next x, N, rfl, by simp [casOf, h4], ?_, ?_⟩
      · rintro m h; cases h; exact h9.ok.1 _ h4
      · intro t ch s' l' f hr hw
        simp only [h5] at hr
        cases ch <;> simp only [reduceCtorEq] at hr
        · split at hr
          · rename_i he
            rw [hs.mem.next x (h9.ok.1 _ h4), h13] at he
            exact ⟨rfl, (hf.eq_iff ((hs.mem.okNext x (h9.ok.1 _ h4)).mono hL) (h12.mono hL)).1 he⟩
          · cases hr; cases hw
        · cases hr; cases hw
  | swing h1 h2 h3 =>
    cases hk
    cases hp with
    | @swing _ T _ y h4 h5 h6 =>
      subst h2
      refine ⟨rfl, ⟨fun _ => rfl, .tail, T, rfl, rfl, htail, ?_⟩, _, _, _, rfl, ?_⟩
      · intro t ch s' l' f hr hw
        cases ch <;> simp only [casTail, reduceCtorEq] at hr
        split at hr
        · rename_i he
          rw [hs.tail, h5.val] at he
          exact ⟨rfl, (hf.eq_iff (hs.okTail.mono hL) (h5.ok.mono hL)).1 he⟩
        · cases hr; cases hw
      · intro t s s' l' f hr hw he
        simp only [casTail, if_pos he] at hr
        cases hr; cases hw
  | cCas h1 h2 h3 h4 h5 h6 =>
    cases hk
    cases hp with
    | @cCas _ H _ y h7 h8 =>
      rw [hf.node_hnd (okPtr.some h8) hL] at h2
      subst h3
      simp only [casHead, h1, ← h2]
      refine ⟨rfl, fun _ => rfl, fun _ => rfl, .head, H, rfl, rfl, hhead, ?_⟩
      intro t ch s' l' f hr hw
      cases ch <;> simp only [reduceCtorEq] at hr
      · split at hr
        · rename_i he
          rw [hs.head, h7.val] at he
          exact ⟨rfl, (hf.eq_iff (hs.okHead.mono hL) (h7.ok.mono hL)).1 he⟩
        · cases hr; cases hw
      · cases hr; cases hw
  | cData h1 h2 h3 h4 => cases hk; cases hp; simp only [copyPayload, h3]; exact ⟨_, rfl⟩
  | cDestroy h1 h2 => cases hk; cases hp; simp only [dtor, h1]; exact ⟨rfl, rfl, rfl, rfl, by simp⟩
  | eHead => cases hk; cases hp; exact ⟨rfl, rfl, rfl, rfl⟩
  | rsv => cases hk; cases hp; exact ⟨rfl, rfl, rfl, rfl, by simp⟩

/-! ### Reads -/

/-- Values of `tail_` and `head_` that were read are related also to what the thread has seen. -/
def LocRel (R : Rep) (N : Nat) (V : View Queue.Loc) : PC α → SPC R.K α → Prop
  | .pCheck _ T L, .pCheck _ _ L' => LinkRel R N (T.ver < V.seen .tail) L L'
  | .cCheck H _ L, .cCheck _ _ L' => LinkRel R N (H.ver < V.seen .head) L L'
  | _, _ => True

theorem LocRel.of_not_check {N : Nat} {V : View Queue.Loc} {p : PC α} {q : SPC R.K α} (h : isCheck p = false) : LocRel R N V p q := by
  cases p <;> first | (cases h; done) | exact trivial

theorem LocRel.mono {N N' : Nat} {V V' : View Queue.Loc} {p : PC α} {q : SPC R.K α} (h : LocRel R N V p q) (hN : N ≤ N') (hV : V.Le V') :
    LocRel R N' V' p q := by
  unfold LocRel at h ⊢
  split at h <;> first | exact trivial | exact LinkRel.mono h hN fun h => Nat.lt_of_lt_of_le h (hV.1 _)

section
variable {D : WConf α} {g : G} {gh : Gh} {c : QC α} (hi : WInv R.cfg D g gh c)
include hi

theorem head_snap {i : Nat} (h : i ≤ D.s.top .head) {x : SSnap R.K} (hx : MsgRel R D.s.s.heap.nalloc (D.s.msg .head i).val x) :
    SnapRel R D.s.s.heap.nalloc i (D.s.msg .head i).val x := by
  have h1 := hi.m1.hval i h
  exact ⟨hx.val, hx.ver, hx.ok, by rw [h1]; exact Nat.le_refl _, by rw [h1]; rfl⟩

theorem tail_snap {i : Nat} (h : i ≤ D.s.top .tail) {x : SSnap R.K} (hx : MsgRel R D.s.s.heap.nalloc (D.s.msg .tail i).val x) :
    SnapRel R D.s.s.heap.nalloc i (D.s.msg .tail i).val x := by
  have h1 := hi.m1.tval i h
  exact ⟨hx.val, hx.ver, hx.ok, by rw [h1]; exact Nat.le_refl _, by rw [h1]; rfl⟩

theorem pool_snap {i : Nat} (h : i ≤ D.s.top .pool) {x : SSnap R.K} (hx : MsgRel R D.s.s.heap.nalloc (D.s.msg .pool i).val x) :
    SnapRel R D.s.s.heap.nalloc D.s.s.heap.poolVer (D.s.msg .pool i).val x := by
  have h1 := hi.oi.psn i h
  exact ⟨hx.val, hx.ver, hx.ok, h1.1, h1.2.1⟩

/-- The states as they appear to a load that reads an old message. -/
theorem withWord_rel {w : SSt R.K α} (hs : StRel R D.s.s w) {l : Queue.Loc} {i : Nat} (hl : i ≤ D.s.top l)
    {x : SSnap R.K} (hx : MsgRel R D.s.s.heap.nalloc (D.s.msg l i).val x) :
    StRel R (D.s.s.withWord (D.s.msg l i).val l) (withWord w x l) := by
  cases l with
  | head =>
    have h1 := hi.m1.hval i hl
    exact { hs with head := hx.val, headVer := hx.ver, okHead := hx.ok, tagHead := by simp only [St.withWord, h1]; rfl }
  | tail =>
    have h1 := hi.m1.tval i hl
    exact { hs with tail := hx.val, tailVer := hx.ver, okTail := hx.ok, tagTail := by simp only [St.withWord, h1]; rfl }
  | pool =>
    have h1 := hi.oi.psn i hl
    exact { hs with mem := { hs.mem with pool := hx.val, poolVer := hx.ver, okPool := hx.ok, tag := h1.2.1 } }
  | next n =>
    have := hs.mem.setNext (n := n) hx.ok (upd D.s.s.heap.nver n (D.s.msg (.next n) i).val.ver)
    refine { hs with mem := ?_ }
    simp only [withWord, hx.val, hx.ver, hs.mem.nver]
    exact this

/-- The versions as they appear to a load. -/
theorem withWord_ver {l : Queue.Loc} {i : Nat} (hl : i ≤ D.s.top l) :
    let s := D.s.s.withWord (D.s.msg l i).val l
    s.heap.nalloc = D.s.s.heap.nalloc ∧ s.heap.poolVer ≤ D.s.s.heap.poolVer ∧ s.headVer ≤ D.s.s.headVer ∧ s.tailVer ≤ D.s.s.tailVer := by
  cases l with
  | head => exact ⟨rfl, Nat.le_refl _, by simp only [St.withWord, hi.m1.hval i hl, hi.headVer]; exact hl, Nat.le_refl _⟩
  | tail => exact ⟨rfl, Nat.le_refl _, Nat.le_refl _, by simp only [St.withWord, hi.m1.tval i hl, hi.tailVer]; exact hl⟩
  | pool => exact ⟨rfl, (hi.oi.psn i hl).1, Nat.le_refl _, Nat.le_refl _⟩
  | next n => exact ⟨rfl, Nat.le_refl _, Nat.le_refl _, Nat.le_refl _⟩

/-- At a load, the program counters correspond to each other also in the state as it appears to the load. -/
theorem pcat_withWord {t : Nat} {q : SPC R.K α} (hp : PCAt R D.s.s (D.pc t) q) (hlr : LocRel R D.s.s.heap.nalloc (D.s.view t) (D.pc t) q)
    {alt l ord ch} (hld : loadOf alt (D.pc t) = some (l, ord, ch)) {i : Nat} (h1 : (D.s.view t).seen l ≤ i) (h2 : i ≤ D.s.top l) :
    PCAt R (D.s.s.withWord (D.s.msg l i).val l) (D.pc t) q := by
  have hloc := hi.loc t
  revert hp hlr hld hloc
  generalize D.pc t = p
  intro hp hlr hld hloc
  cases hp with
  | alloc b v h =>
    rename_i a a'
    cases a <;> simp [loadOf] at hld
    cases a' <;> simp only [ARel] at h
    exact .alloc _ _ trivial
  | free h3 h4 h5 =>
    rename_i k n d d'
    cases d <;> simp [loadOf] at hld
    obtain ⟨rfl, -, -⟩ := hld
    cases d' <;> simp only [DRel] at h5
    exact .free h3 h4 trivial
  | nload b v h => simp [loadOf] at hld; obtain ⟨rfl, -, -⟩ := hld; exact .nload b v h
  | pTail h => simp [loadOf] at hld; obtain ⟨rfl, -, -⟩ := hld; exact .pTail h
  | pNext h h' => simp [loadOf] at hld; obtain ⟨x, -, rfl, -, -⟩ := hld; exact .pNext h h'
  | pCheck h h' h'' =>
    simp [loadOf] at hld
    obtain ⟨rfl, -, -⟩ := hld
    have h3 : (D.s.s.withWord (D.s.msg .tail i).val .tail).tailVer = i := by simp [St.withWord, hi.m1.tval i h2]
    have h4 := hloc.2.1.2
    refine .pCheck h ⟨h'.val, h'.ver, h'.ok, ?_, h'.tag⟩ ?_
    · rw [h3]; omega
    · rw [h3]; exact LinkRel.mono hlr (Nat.le_refl _) fun h => by omega
  | cHead => exact .cHead
  | cTail h => simp [loadOf] at hld; obtain ⟨rfl, -, -⟩ := hld; exact .cTail h
  | cNext h h' => simp [loadOf] at hld; obtain ⟨x, -, rfl, -, -⟩ := hld; exact .cNext h h'
  | cCheck h h' h'' =>
    simp [loadOf] at hld
    obtain ⟨rfl, -, -⟩ := hld
    have h3 : (D.s.s.withWord (D.s.msg .head i).val .head).headVer = i := by simp [St.withWord, hi.m1.hval i h2]
    have h4 := hloc.2.1.2
    refine .cCheck ⟨h.val, h.ver, h.ok, ?_, h.tag⟩ h' ?_
    · rw [h3]; omega
    · rw [h3]; exact LinkRel.mono hlr (Nat.le_refl _) fun h => by omega
  | eHead => exact .eHead
  | eTail h => simp [loadOf] at hld; obtain ⟨rfl, -, -⟩ := hld; exact .eTail h
  | eHead2 h => simp [loadOf] at hld; obtain ⟨rfl, -, -⟩ := hld; exact .eHead2 h
  | _ => simp [loadOf] at hld

/-- A load. -/
theorem load_sim (hf : R.Faithful) {w w' : SSt R.K α} (hs : StRel R D.s.s w) {t : Nat} {q q' : SPC R.K α} (hp : PCAt R D.s.s (D.pc t) q)
    (hlr : LocRel R D.s.s.heap.nalloc (D.s.view t) (D.pc t) q) {alt l ord} {ch : SChoice R.K (Op α) α}
    (hld : loadOf alt (D.pc t) = some (l, ord, choiceOf ch)) {i : Nat} (h1 : (D.s.view t).seen l ≤ i) (h2 : i ≤ D.s.top l)
    {x : SSnap R.K} (hx : MsgRel R D.s.s.heap.nalloc (D.s.msg l i).val x) (hfr : sfresh R (withWord w x l) q) {e}
    (hst : ststep R t (withWord w x l) q ch = some (w', q', e)) (V : View Queue.Loc) :
    ∃ s' p', tstep R.cfg t (D.s.s.withWord (D.s.msg l i).val l) (D.pc t) (choiceOf ch) = some (s', p', none) ∧ PCAt R D.s.s p' q' ∧
      LocRel R D.s.s.heap.nalloc V p' q' := by
  have hw := withWord_rel hi hs h2 hx
  have hp' := pcat_withWord hi hp hlr hld h1 h2
  obtain ⟨s', p', h3, -, h4, h5⟩ := step_sim hf hw hp' hfr hst
  obtain ⟨rfl, rfl⟩ := load_same hld h3
  obtain ⟨e1, e2, e3, e4⟩ := withWord_ver hi h2
  refine ⟨_, p', h3, h4.mono (Nat.le_of_eq e1) e2 e3 e4, ?_⟩
  have hL := hs.mem.limit
  by_cases hn : (∀ n T, D.pc t = .pNext n T → T.v.ptr = none) ∧ ∀ H T, D.pc t = .cNext H T → H.v.ptr = none
  · exact .of_not_check (tstep_not_check h3 hn.1 hn.2)
  · clear hp' h4 h5
    revert hp hlr hld h3 hn
    generalize D.pc t = p
    intro hp hlr hld h3 hn
    cases p <;> first | (simp at hn; done) | skip
    · cases hp with
      | pNext h6 h7 =>
        simp [loadOf] at hld
        obtain ⟨m, h8, rfl, rfl, h9⟩ := hld
        rw [← h9] at h3
        simp [tstep, h8] at h3
        subst h3
        cases ch <;> simp [choiceOf, SChoice.base] at h9
        · simp [ststep, Rep.node_snap hf h7 hL, h8] at hst
          obtain ⟨-, rfl, -⟩ := hst
          simpa [LocRel, LinkRel, SSt.nextSnap, St.nextSnap, withWord, St.withWord] using ⟨hx.ver, .inl ⟨hx.ok, hx.val⟩⟩
    · cases hp with
      | cNext h6 h7 =>
        simp [loadOf] at hld
        obtain ⟨m, h8, rfl, rfl, h9⟩ := hld
        rw [← h9] at h3
        simp [tstep, h8] at h3
        subst h3
        cases ch <;> simp [choiceOf, SChoice.base] at h9
        · simp [ststep, Rep.node_snap hf h6 hL, h8] at hst
          obtain ⟨-, rfl, -⟩ := hst
          simpa [LocRel, LinkRel, SSt.nextSnap, St.nextSnap, withWord, St.withWord] using ⟨hx.ver, .inl ⟨hx.ok, hx.val⟩⟩

/-- A failing compare-exchange. -/
theorem fail_sim {w w' : SSt R.K α} (hs : StRel R D.s.s w) {t : Nat} {q q' : SPC R.K α} (hp : PCAt R D.s.s (D.pc t) q)
    {l o} (hc : casOf (D.pc t) = some (l, o)) {i : Nat} (h2 : i ≤ D.s.top l) {x : SSnap R.K}
    (hx : MsgRel R D.s.s.heap.nalloc (D.s.msg l i).val x) {ch : SChoice R.K (Op α) α} {e}
    (hst : ststep R t (withWord w x l) q ch = some (w', q', e))
    (hch : (ch = .spur ∧ ∀ x, failOf x (D.pc t) = some (.base .spur)) ∨ ch = .go ∧ ∃ k T y, q = .swing k T y ∧ (withWord w x l).tail ≠ T.v) :
    ∃ b s' p', failOf (D.s.msg l i).val (D.pc t) = some b ∧
      tstep R.cfg t (D.s.s.withWord (D.s.msg l i).val l) (D.pc t) b = some (s', p', none) ∧ PCAt R D.s.s p' q' ∧ isCheck p' = false := by
  have hL := hs.mem.limit
  revert hp hc hch
  generalize D.pc t = p
  intro hp hc hch
  rcases hch with ⟨rfl, hch⟩ | ⟨rfl, k, T', y', rfl, hne⟩
  · refine ⟨.base .spur, ?_⟩
    rw [hch]
    cases hp with
    | alloc b v h =>
      rename_i a a'
      cases a <;> simp [casOf] at hc
      obtain ⟨rfl, rfl⟩ := hc
      cases a' <;> simp only [ARel] at h
      simp [ststep, saStep] at hst
      obtain ⟨-, rfl, -⟩ := hst
      exact ⟨_, _, rfl, rfl, .alloc _ _ (pool_snap hi h2 hx), rfl⟩
    | free h3 h4 h5 =>
      rename_i k n d d'
      cases d <;> simp [casOf] at hc
      obtain ⟨rfl, rfl⟩ := hc
      cases d' <;> simp only [DRel] at h5
      simp [ststep, sdStep] at hst
      obtain ⟨-, rfl, -⟩ := hst
      exact ⟨_, _, rfl, rfl, .free h3 h4 (pool_snap hi h2 hx), rfl⟩
    | pCas h3 h4 h5 =>
      cases hst
      exact ⟨_, _, rfl, rfl, .pTail h3, rfl⟩
    | cCas v h3 h4 =>
      cases hst
      exact ⟨_, _, rfl, rfl, .cHead, rfl⟩
    | swing => simp [ststep] at hst
    | _ => simp [casOf] at hc
  · cases hp with
    | @swing _ _ _ y h3 h4 h5 =>
      cases hc
      have h6 : (D.s.msg .tail i).val.v ≠ o.v := by
        intro h
        apply hne
        show x.v = T'.v
        rw [hx.val, h4.val, h]
      cases hst
      refine ⟨.base .go, _, _, by simp only [failOf, if_neg h6], rfl, ?_, ?_⟩
      · cases k with
        | retryPush n => exact .pTail h3
        | donePush => exact .ret _
        | retryPop => exact .cHead
      · cases k <;> rfl

/-- A load that is not ordered after a non-atomic write. -/
theorem torn_sim (hf : R.Faithful) {w w' : SSt R.K α} (hs : StRel R D.s.s w) {t : Nat} {q q' : SPC R.K α} (hp : PCAt R D.s.s (D.pc t) q)
    {n k i ord} (hld : loadOf false (D.pc t) = some (.next n, ord, .base .go)) (h0 : (D.s.view t).seen (.next n) ≤ k) (h1 : k ≤ i)
    (h2 : i ≤ D.s.top (.next n)) (hpl : D.s.pl n k = true) (hk : (D.s.view t).knows (D.s.acc n) = false) {x : R.K.W} {r : Nat}
    (hr : r = (D.s.msg (.next n) i).val.ver) {e} (hst : ststep R t (withWord w ⟨x, r⟩ (.next n)) q .go = some (w', q', e)) :
    ord = .acquire ∧ ∃ f, tornOf (D.pc t) = some (n, f) ∧ PCAt R D.s.s (f ⟨⟨none, 0⟩, (D.s.msg (.next n) i).val.ver⟩) q' ∧
      LocRel R D.s.s.heap.nalloc (D.s.readView t (.next n) i .acquire) (f ⟨⟨none, 0⟩, (D.s.msg (.next n) i).val.ver⟩) q' := by
  have hL := hs.mem.limit
  have hl := hi.loc t
  have hV := hi.vgt t
  have hva : VG D.s.msg D.s.top (D.s.readView t (.next n) i .acquire) := hi.vg_read t h2
  have htK := hi.m1.tK
  have hC := hi.m1.C hV
  have hVt := hV.1 .tail
  have hse := seen_readView D.s t (.next n) i .acquire
  have key : ∀ j, n = gh.X j → j ≤ (D.s.view t).seen .tail → j < (D.s.readView t (.next n) i .acquire).seen .head := by
    rintro j rfl hj
    have h3 := hi.m1.E hV hj
    have h4 := (hi.m1.plok _ _ hpl).2 j (by omega) rfl
    exact hi.m1.F hva (by omega) (by omega)
  have hown := hi.oi.thr n t
  have hheld : ∀ m, g.held t = [m] → g.own m = .thr t := fun m h => (hi.si.heap.hmem t m).2 (by rw [h]; simp)
  revert hp hld hl
  generalize D.pc t = p
  intro hp hld hl
  have hhv := hi.headVer
  have htv := hi.tailVer
  cases hp with
  | alloc b v h => rename_i a a'; cases a <;> simp [loadOf] at hld
  | free h3 h4 h5 => rename_i k n d d'; cases d <;> simp [loadOf] at hld
  | nload b v h =>
    simp [loadOf] at hld
    obtain ⟨rfl, -⟩ := hld
    rw [(hown (hheld _ hl.1)).1] at hk
    cases hk
  | @pNext m T T' h3 h4 =>
    simp [loadOf] at hld
    obtain ⟨h5, rfl⟩ := hld
    simp [ststep, Rep.node_snap hf h4 hL, h5] at hst
    obtain ⟨-, rfl, -⟩ := hst
    obtain ⟨h6, h7⟩ := hl
    have h8 : n = gh.X T.ver := by
      have := h7.1; rw [this] at h5; simpa using h5.symm
    have h9 := Nat.lt_of_lt_of_le (key _ h8 h7.2) (hi.m1.C hva)
    have h10 := hva.1 .tail
    refine ⟨rfl, _, by simp only [tornOf, h5]; rfl, .pCheck h3 h4 ⟨?_, .inr (by omega)⟩, ?_, .inr h9⟩ <;>
      simp [SSt.nextSnap, withWord, hr]
  | @cNext H H' T T' h3 h4 =>
    simp [loadOf] at hld
    obtain ⟨h5, rfl⟩ := hld
    simp [ststep, Rep.node_snap hf h3 hL, h5] at hst
    obtain ⟨-, rfl, -⟩ := hst
    obtain ⟨-, h7, -⟩ := hl
    have h8 : n = gh.X H.ver := by
      have := h7.1; rw [this] at h5; simpa using h5.symm
    have h9 := key _ h8 (Nat.le_trans h7.2 hC)
    have h10 := hva.1 .head
    refine ⟨rfl, _, by simp only [tornOf, h5]; rfl, .cCheck h3 h4 ⟨?_, .inr (by omega)⟩, ?_, .inr h9⟩ <;>
      simp [SSt.nextSnap, withWord, hr]
  | _ => simp [loadOf] at hld

end

theorem squiet_sim (hf : R.Faithful) {s : St α} {w : SSt R.K α} (hs : StRel R s w) {p : PC α} {q q' : SPC R.K α} (hp : PCAt R s p q)
    (hq : squiet R q = some q') : ∃ p', quiet R.cfg p = some p' ∧ PCAt R s p' q' ∧ isCheck p' = false := by
  have hL := hs.mem.limit
  cases hp with
  | @alloc b v a a' h2 =>
    cases a' <;> simp only [squiet, reduceCtorEq] at hq
    cases a <;> simp only [ARel] at h2
    rw [Rep.node_snap hf h2 hL] at hq
    simp only [quiet, Rep.cfg]
    split at hq <;> cases hq
    exact ⟨_, if_pos (by assumption), .ret _, rfl⟩
  | rsv k h => cases k <;> simp only [squiet, reduceCtorEq] at hq; cases hq; exact ⟨_, rfl, .ret _, rfl⟩
  | _ => simp [squiet] at hq

/-- The continuation of a racing read. -/
def sspecOf (x : R.K.H) : SPC R.K α → Option (SPC R.K α)
  | .alloc b v (.test o) => some (.alloc b v (.cas o x))
  | _ => none

theorem spec_goal {w : SSt R.K α} {l l' : Loc R.K α} {a : LAcc R α} {k q} (hat : At l (.stm (.acc a) :: k) q) {n race ch}
    (hk : a.kind l = .spec n race) (hr : race ch = some l') : ∃ x q', sspecOf x q = some q' ∧ Goal 60 l' k q' := by
  have go : ∀ {s : SSt R.K α} {x q'}, a.run 0 s l ch = some (s, l', .next) → ststep R 0 s q ch = some (s, q', none) → sspecOf x q = some q' →
      ∃ x q', sspecOf x q = some q' ∧ Goal 60 l' k q' := by
    intro s x q' h1 h2 h3
    obtain ⟨p', -, h4, h5⟩ := access 0 s l a k q ch s l' .next hat h1
    rw [h2] at h4
    cases h4
    exact ⟨x, _, h3, h5⟩
  have hat' := hat
  generalize hK : Item.stm (.acc a) :: k = K at hat'
  cases hat' with
  | alloc hc ha =>
    subst hK
    cases ha with
    | @read o m ho hn =>
      subst ho
      have hn' : R.K.node (R.K.ptr l.fl.old_pool.v) = some m := hn
      simp only [Port.readLink, Port.acc, hn] at hk
      injection hk with h1 h2
      subst h2
      cases ch <;> simp only [reduceCtorEq, Option.some.injEq] at hr
      rename_i x
      subst hr
      refine go (s := { w with mem := { w.mem with poolVer := l.fl.old_pool.ver + 1 } }) (x := x) ?_ ?_ rfl
      · simp [Port.readLink, Port.acc, port, hn']
      · simp [ststep, saStep, port, hn']
    | _ => cases hk
  | free hc hd =>
    subst hK
    cases hd with
    | set hn => simp only [Port.setLink, Port.acc, hn] at hk; cases hk
    | _ => cases hk
  | fin => simp at hK
  | nload h | nstore h => cases hK; simp [ctorLoad, ctorStore, h] at hk
  | pNext => cases hK; simp only [loadNext] at hk; split at hk <;> cases hk
  | cNext => cases hK; simp only [loadNext] at hk; split at hk <;> cases hk
  | pCas => cases hK; simp only [casNext] at hk; split at hk <;> cases hk
  | cData => cases hK; simp only [copyPayload] at hk; split at hk <;> cases hk
  | _ => cases hK; cases hk

theorem copy_goal {w : SSt R.K α} {l l' : Loc R.K α} {a : LAcc R α} {k} {H : SSnap R.K} {y nx} (hat : At l (.stm (.acc a) :: k) (.cData H y nx)) {n race ch}
    (hk : a.kind l = .copy n race) (hr : race ch = some l') : ∃ v, Goal 60 l' k (.cCas H nx v) := by
  have go : ∀ {s : SSt R.K α} {v}, a.run 0 s l ch = some (s, l', .next) → ststep R 0 s (.cData H y nx) ch = some (s, .cCas H nx v, none) →
      ∃ v, Goal 60 l' k (.cCas H nx v) := by
    intro s v h1 h2
    obtain ⟨p', -, h4, h5⟩ := access 0 s l a k _ ch s l' .next hat h1
    rw [h2] at h4
    cases h4
    exact ⟨v, h5⟩
  have hat' := hat
  generalize hK : Item.stm (.acc a) :: k = K at hat'
  cases hat' with
  | cData h1 h2 h3 h4 h5 =>
    cases hK
    subst h1
    simp only [copyPayload, h3] at hk
    injection hk with h6 h7
    subst h7
    cases ch <;> simp only [reduceCtorEq, Option.some.injEq] at hr
    rename_i v
    subst hr
    refine go (s := { w with headVer := l.head.ver + 1 }) (v := v) ?_ ?_
    · simp [copyPayload, h3]
    · simp [ststep]

theorem ok_sfresh {s : SSt R.K α} {l : Loc R.K α} {a : LAcc R α} {k q} (hat : At l (.stm (.acc a) :: k) q) {x ord} (hk : a.kind l = .load x ord)
    (hok : a.ok s l .go = true) : sfresh R s q := by
  generalize hK : Item.stm (.acc a) :: k = K at hat
  cases hat with
  | alloc hc ha =>
    subst hK
    cases ha with
    | cas => cases hk
    | _ => exact trivial
  | fin => simp at hK
  | pCas => cases hK; simp only [casNext] at hk; split at hk <;> cases hk
  | pCheck h1 h2 h3 => cases hK; subst h3; simpa [loadTail, tailFresh, sfresh] using hok
  | cCheck h1 => cases hK; subst h1; simpa [loadHead, headFresh, sfresh] using hok
  | swing | cCas => cases hK; cases hk
  | _ => trivial

theorem sfresh_withWord {w : SSt R.K α} {x : SSnap R.K} {l : Queue.Loc} {q : SPC R.K α} {s : St α} {p : PC α} (hp : PCAt R s p q) {alt ord ch}
    (hld : loadOf alt p = some (l, ord, ch)) (hx : x.ver ≤ (word w l).ver) (h : sfresh R w q) : sfresh R (withWord w x l) q := by
  cases hp with
  | alloc b v h1 =>
    rename_i a a'
    cases a <;> simp [loadOf] at hld
    cases a' <;> simp only [ARel] at h1
    exact trivial
  | pCheck => simp [loadOf] at hld; obtain ⟨rfl, -, -⟩ := hld; exact Nat.lt_of_le_of_lt hx h
  | cCheck => simp [loadOf] at hld; obtain ⟨rfl, -, -⟩ := hld; exact Nat.lt_of_le_of_lt hx h
  | pCas | swing | cCas => simp [loadOf] at hld
  | _ => exact trivial

theorem fresh_none {cfg : Cfg} {s : St α} {p : PC α} (h : casOf p = none) (hl : loadOf false p = none) : fresh cfg s p := by
  cases p with
  | alloc b v a => cases a <;> first | exact trivial | simp [casOf] at h
  | pCas n T N =>
    intro x hx
    simp [casOf, hx] at h
  | pCheck | cCheck => simp [loadOf] at hl
  | swing | cCas => simp [casOf] at h
  | _ => exact trivial

/-- Steps of thread `t` of the machine of `Queue/Weak`. -/
abbrev WMoves (cfg : Cfg) (t : Nat) (v : WSt α) (p : PC α) (h : History (Op α × View Queue.Loc) (Ret α × View Queue.Loc)) (v' : WSt α) (p' : PC α) : Prop :=
  ∃ a b, Moves (wmach α cfg true) (okWFresh cfg) (fun _ _ => false) t v p h v' p' a b

theorem WMoves.one {cfg : Cfg} {t : Nat} {v v' : WSt α} {p p' : PC α} {ch e} (hok : okWFresh cfg v p ch)
    (h : wstep cfg true t v p ch = some (v', p', e)) : WMoves cfg t v p e.toList v' p' :=
  ⟨_, _, Moves.one (m := wmach α cfg true) hok h⟩

/-- Threads that correspond to each other. -/
def ThreadRel (R : Rep) (s : St α) (V : View Queue.Loc) (tp : TPC (SSt R.K α) (Loc R.K α) (SChoice R.K (Op α) α) (Ret α)) (p : PC α) : Prop :=
  ∃ q n, Text.PCRel (smach α R) .err At n tp q ∧ PCAt R s p q ∧ LocRel R s.heap.nalloc V p q

/-- What is shown about a step of the text: the machine of `Queue/Weak` makes corresponding steps. -/
def Result (R : Rep) (D : WConf α) (t : Nat) (h : History (Op α × View Queue.Loc) (Ret α × View Queue.Loc)) (w' : RaSt R α)
    (tp : TPC (SSt R.K α) (Loc R.K α) (SChoice R.K (Op α) α) (Ret α)) : Prop :=
  ∃ v' p', WMoves R.cfg t D.s (D.pc t) h v' p' ∧ RaRel R v' w' ∧ GrowsQ D.s.s v'.s ∧ (∀ u, u ≠ t → v'.view u = D.s.view u) ∧
    ThreadRel R v'.s (v'.view t) tp p'

section
variable {D : WConf α} {t : Nat}

theorem Result.goal (hf : R.Faithful) {h} {v : WSt α} {w : RaSt R α} (hw : RaRel R v w) {p : PC α} {q : SPC R.K α} (hp : PCAt R v.s p q)
    (hlr : LocRel R v.s.heap.nalloc (v.view t) p q) {l : Loc R.K α} {k} (hg : Goal 60 l k q) (hm : WMoves R.cfg t D.s (D.pc t) h v p)
    (h1 : GrowsQ D.s.s v.s) (h2 : ∀ u, u ≠ t → v.view u = D.s.view u) : Result R D t h w (.run l k) := by
  rcases hg with hg | ⟨q', h3, h4⟩
  · exact ⟨v, p, hm, hw, h1, h2, q, _, ⟨_, rfl, hg⟩, hp, hlr⟩
  · obtain ⟨p', h5, h6, h7⟩ := squiet_sim hf hw.st hp h3
    obtain ⟨a, b, hm⟩ := hm
    have h8 : WMoves R.cfg t v p [] v p' := WMoves.one (ch := .skip) (e := none) trivial (by simp only [wstep, h5]; rfl)
    obtain ⟨a', b', h8⟩ := h8
    exact ⟨v, p', ⟨_, _, by simpa using hm.trans h8⟩, hw, h1, h2, q', _, ⟨_, rfl, h4⟩, h6, .of_not_check h7⟩

theorem Result.after (hf : R.Faithful) {h} {v : WSt α} {w : RaSt R α} (hw : RaRel R v w) {p : PC α} {q : SPC R.K α} (hp : PCAt R v.s p q)
    (hlr : LocRel R v.s.heap.nalloc (v.view t) p q) {l : Loc R.K α} {k f} (hg : f.ifUb (q = .err) (Goal 60 l (f.rest k) q))
    (hm : WMoves R.cfg t D.s (D.pc t) h v p) (h1 : GrowsQ D.s.s v.s) (h2 : ∀ u, u ≠ t → v.view u = D.s.view u) :
    Result R D t h w (after l k f) := by
  cases f
  · exact .goal hf hw hp hlr hg hm h1 h2
  · exact .goal hf hw hp hlr hg hm h1 h2
  · exact ⟨v, p, hm, hw, h1, h2, q, 0, hg, hp, hlr⟩

/-- An access. -/
theorem ra_access (hf : R.Faithful) {n h} (hx : WFreshExec R.cfg true n h D) {w w' : RaSt R α} (hw : RaRel R D.s w) {q : SPC R.K α}
    (hp : PCAt R D.s.s (D.pc t) q) (hlr : LocRel R D.s.s.heap.nalloc (D.s.view t) (D.pc t) q) {l l' : Loc R.K α} {a : LAcc R α} {k f}
    (hat : At l (.stm (.acc a) :: k) q) {ch} (hs : raAccess true t w l a ch = some (w', l', f)) (hok : raOk (L := Loc R.K α) w (.run l (.stm (.acc a) :: k)) ch) :
    Result R D t [] w' (after l' k f) := by
  obtain ⟨g, gh, c, hi, -⟩ := hx.inv
  have hl := hi.loc t
  have hT : ∀ n T, D.pc t = .pNext n T → T.v.ptr ≠ none := by
    intro n T hpc; rw [hpc] at hl; rw [hl.2.1]; simp
  have hH : ∀ H T, D.pc t = .cNext H T → H.v.ptr ≠ none := by
    intro n T hpc; rw [hpc] at hl; rw [hl.2.1.1]; simp
  have hag := kind_agrees hf hw.st hat hp hT hH
  have hkn : ∀ ns : List Nat, (ns.all fun n => (w.view t).knows (w.acc n)) = ns.all fun n => (D.s.view t).knows (D.s.acc n) := by
    intro ns; rw [hw.view, hw.acc]
  have upn : ∀ {v : WSt α} {V : View Queue.Loc}, v.view = upd D.s.view t V → ∀ u, u ≠ t → v.view u = D.s.view u := by
    intro v V h u hu; rw [h, upd_ne _ _ _ hu]
  have ub : (∃ m, wstep R.cfg true t D.s (D.pc t) (.step (.base m)) = some (D.s.plain t [] D.s.s, .err, none) ∧ fresh R.cfg D.s.s (D.pc t)) →
      some (w.plain t [] w.s, l, Flow.ub) = some (w', l', f) → Result R D t [] w' (after l' k f) := by
    rintro ⟨m, h1, h2⟩ h3
    cases h3
    exact ⟨D.s.plain t [] D.s.s, .err, WMoves.one (ch := .step (.base m)) (e := none) h2 h1, hw.same t [], .refl _, upn rfl, .err, 0, rfl, .err, trivial⟩
  have plain : ∀ {ns : List Nat} {b s₁}, casOf (D.pc t) = none → loadOf false (D.pc t) = none → storeOf (D.pc t) = none → touch (D.pc t) = ns →
      garbageOf D.s t (D.pc t) (choiceOf b) = none → ordered D.s t (D.pc t) (choiceOf b) = true →
      (ns.all fun n => (D.s.view t).knows (D.s.acc n)) = true → a.run t w.s l b = some (s₁, l', f) → w' = w.plain t ns s₁ → a.ok w.s l b = true →
      Result R D t [] w' (after l' k f) := by
    rintro ns b s₁ h1 h2 h3 rfl hga hor h4 h5 rfl h6
    obtain ⟨q', h7, h8, h9⟩ := access t w.s l a k q b s₁ l' f hat h5
    obtain ⟨s', p', h10, h11, h12, h13⟩ := step_sim hf hw.st hp (h7 h6) h8
    have hst : wstep R.cfg true t D.s (D.pc t) (.step (choiceOf b)) = some (D.s.plain t (touch (D.pc t)) s', p', none) := by
      simp only [wstep, h1, h2, h3, h4, hga, hor, h10]; rfl
    have hfr : okWFresh R.cfg D.s (D.pc t) (.step (choiceOf b)) := fresh_of hf hw.st hp (h7 h6)
    obtain ⟨g', gh', c', hi', -⟩ := WFreshExec.inv (MSteps.step (m := wmach α R.cfg true) (t := t) (ch := .step (choiceOf b)) hx hst hfr)
    have hw' : RaRel R (D.s.plain t (touch (D.pc t)) s') (w.plain t (touch (D.pc t)) s₁) := by
      refine hw.plain t _ h11 h13.1.1 fun m h14 h15 => ?_
      have h16 := (hi.oi.raw m ((hi.si.heap.raw m).2 h14)).2.1
      have h17 := hi'.last (.next m)
      simp only [WSt.plain, h16] at h17
      exact ⟨h16, h17⟩
    refine .after hf hw' h12 ?_ h9 (WMoves.one hfr hst) h13 (upn rfl)
    refine .of_not_check (tstep_not_check h10 ?_ ?_) <;> intro x y hpc <;> rw [hpc] at h2 <;> simpa [loadOf] using h2
  have rmw : ∀ {ns : List Nat} {x : Obj} {won : Loc R.K α → Bool} {b}, touch (D.pc t) = ns → CasAgrees R w.s D.s.s (D.pc t) l a x won →
      raCas t w l a x won ns b = some (w', l', f) → a.ok w.s l b = true → Result R D t [] w' (after l' k f) := by
    rintro ns x won b rfl ⟨h1, lc, o, h2, h3, hex, h4⟩ h5 h6
    simp only [raCas, h2] at h5
    split at h5
    · rename_i lc' s₁ l₁ f₁ h7 h8
      cases h7
      split at h5
      · rename_i h9
        obtain ⟨rfl, h10⟩ := h4 _ _ _ _ _ h8 h9
        obtain ⟨q', h11, h12, h13⟩ := access t w.s l a k q .go s₁ l₁ f₁ hat h8
        have hfr : okWFresh R.cfg D.s (D.pc t) (.step (.base .go)) := fresh_of hf hw.st hp (h11 h6)
        rw [hkn] at h5
        split at h5
        · rename_i h14
          cases h5
          obtain ⟨s', p', h15, h16, h17, h18⟩ := step_sim hf hw.st hp (h11 h6) h12
          have hna := nalloc_same (.inl (by rw [h3]; rfl)) h15
          have hst : wstep R.cfg true t D.s (D.pc t) (.step (.base .go)) = some (D.s.rmw t lc (touch (D.pc t)) s', p', none) := by
            simp only [wstep, h3, if_pos h10, h14, show tstep R.cfg t D.s.s (D.pc t) (.base .go) = _ from h15]; rfl
          refine .after hf (hw.rmw t hex _ h16 hna) h17 ?_ h13 (WMoves.one hfr hst) h18 (upn rfl)
          refine .of_not_check (tstep_not_check h15 ?_ ?_) <;> intro x y hpc <;> rw [hpc] at h3 <;> cases h3
        · rename_i h14
          refine ub ⟨.go, ?_, hfr⟩ h5
          simp only [wstep, h3, if_pos h10, if_neg h14]
      · cases h5
    · cases h5
  have load : ∀ {x : Obj} {lc ord b alt} {i : Nat}, locOf x = some lc → Exists D.s.s.heap.nalloc lc → casOf (D.pc t) = none →
      loadOf alt (D.pc t) = some (lc, ord, choiceOf b) → sfresh R w.s q → raRead t w l a x ord b i = some (w', l', f) →
      Result R D t [] w' (after l' k f) := by
    intro x lc ord b alt i h1 hex hcas h2 hfr h4
    simp only [raRead, h1] at h4
    split at h4
    · rename_i h5
      simp only [Option.map_eq_some_iff] at h4
      obtain ⟨⟨s₁, y⟩, h6, h7⟩ := h4
      cases h7
      rw [hw.view, hw.top] at h5
      obtain ⟨q', -, h8, h9⟩ := access t _ l a k q b s₁ l' f hat h6
      have hm := hw.mval lc hex i h5.2
      have hle : (w.msg lc i).val.ver ≤ (word w.s lc).ver := by
        rw [hm.ver]
        obtain ⟨e1, e2, e3, e4⟩ := withWord_ver hi h5.2
        cases lc with
        | head => exact Nat.le_trans e3 (Nat.le_of_eq hw.st.headVer.symm)
        | tail => exact Nat.le_trans e4 (Nat.le_of_eq hw.st.tailVer.symm)
        | pool => exact Nat.le_trans e2 (Nat.le_of_eq hw.st.mem.poolVer.symm)
        | next m =>
          have := hi.m1.mono m i _ h5.2 (Nat.le_refl _)
          rw [← hi.nver_eq m] at this
          exact Nat.le_trans this (Nat.le_of_eq (congrFun hw.st.mem.nver m).symm)
      obtain ⟨s', p', h10, h11, h12⟩ := load_sim hi hf hw.st hp hlr h2 h5.1 h5.2 hm (sfresh_withWord hp h2 hle hfr) h8 ((D.s.recv t lc i ord).view t)
      refine .after hf (hw.recv t lc i ord) h11 h12 h9 (WMoves.one (ch := .read alt i) (e := none) ?_ ?_) (.refl _) (upn rfl)
      · exact fun _ => fresh_of hf hw.st hp hfr
      · simp only [wstep, h2, if_pos h5, h10]; rfl
    · cases h4
  have fail : ∀ {x : Obj} {won : Loc R.K α → Bool} {b} {i : Nat}, CasAgrees R w.s D.s.s (D.pc t) l a x won →
      raRead t w l a x .acquire b i = some (w', l', f) →
      ((b = .spur ∧ ∀ x, failOf x (D.pc t) = some (.base .spur)) ∨ b = .go ∧ won l' = false ∧ ∃ k T y, q = .swing k T y ∧
        ∀ t s s' l' f, a.run t s l .go = some (s', l', f) → won l' = false → s.tail ≠ T.v) →
      Result R D t [] w' (after l' k f) := by
    rintro x won b i ⟨h1, lc, o, h2, h3, hex, -⟩ h4 hb
    simp only [raRead, h2] at h4
    split at h4
    · rename_i h5
      simp only [Option.map_eq_some_iff] at h4
      obtain ⟨⟨s₁, y⟩, h6, h7⟩ := h4
      cases h7
      rw [hw.view, hw.top] at h5
      obtain ⟨q', -, h8, h9⟩ := access t _ l a k q b s₁ l' f hat h6
      obtain ⟨b', s', p', h10, h11, h12, h13⟩ := fail_sim hi hw.st hp h3 h5.2 (hw.mval lc hex i h5.2) h8 (by
        rcases hb with hb | ⟨rfl, hb, k', T, y', rfl, hb'⟩
        · exact .inl hb
        · exact .inr ⟨rfl, k', T, y', rfl, hb' _ _ _ _ _ h6 hb⟩)
      refine .after hf (hw.recv t lc i .acquire) h12 (.of_not_check h13) h9 (WMoves.one (ch := .read false i) (e := none) ?_ ?_) (.refl _) (upn rfl)
      · intro hc; rw [h3] at hc; cases hc
      · simp only [wstep, h1, h3, h10, if_pos h5, h11]; rfl
    · cases h4
  cases ch with
  | act b =>
    have hok : a.ok w.s l b = true := hok
    simp only [raAccess] at hs
    rcases hk : a.kind l with ns | ⟨x, ord⟩ | ⟨x, won⟩ | ⟨n, race⟩ | ⟨x, y, ord⟩ | ⟨x, won⟩ | ⟨x, won, ns⟩ | ⟨n, at', ns⟩ | ⟨n, race⟩ <;>
      rw [hk] at hag <;> simp only [hk, reduceCtorEq] at hs
    · obtain ⟨h1, h2, h3, h4, h5⟩ := hag
      simp only [raPlain, hkn] at hs
      split at hs
      · rename_i h6
        simp only [Option.map_eq_some_iff] at hs
        obtain ⟨⟨s₁, y⟩, h7, h8⟩ := hs
        cases h8
        have h9 : garbageOf D.s t (D.pc t) (choiceOf b) = none := by
          unfold garbageOf; split
          · exact absurd (by assumption) (h5 _ _)
          · rfl
        refine plain h1 h2 h3 h4 h9 ?_ h6 h7 rfl hok
        obtain ⟨q', h10, h11, -⟩ := access t w.s l a k q b s₁ l' f hat h7
        obtain ⟨s', p', h12, -⟩ := step_sim hf hw.st hp (h10 hok) h11
        unfold ordered
        split
        · exact absurd (by assumption) (h5 _ _)
        · rename_i v hb
          rw [hb] at h12
          obtain ⟨H, y, h13⟩ := tstep_garbage h12 h2 hT hH
          exact absurd h13 (h5 _ _)
        · rfl
      · rename_i h6
        refine ub ⟨.go, ?_, ?_⟩ hs
        · simp only [wstep, h1, h2, h4, if_neg h6]
        · exact fresh_none h1 h2
    · exact rmw hag.1 hag.2.2 hs hok
    · obtain ⟨bb, v, o, h1, h2⟩ := hag
      simp only [raPlain, List.all_nil, if_true, Option.map_eq_some_iff] at hs
      obtain ⟨⟨s₁, y⟩, h7, h8⟩ := hs
      cases h8
      have h9 : garbageOf D.s t (D.pc t) (choiceOf b) = none := by rw [h1]; rfl
      refine plain (by rw [h1]; rfl) (by rw [h1]; rfl) (by rw [h1]; rfl) (by rw [h1]; rfl) h9 ?_ rfl h7 rfl hok
      obtain ⟨q', h10, h11, -⟩ := access t w.s l a k q b s₁ l' f hat h7
      obtain ⟨s', p', h12, -⟩ := step_sim hf hw.st hp (h10 hok) h11
      rw [h1] at h12 ⊢
      cases hb : choiceOf b with
      | garbage v => rw [hb] at h12; simp [tstep] at h12
      | _ => rfl
    · exact rmw hag.1 hag.2.1 hs hok
    · exact rmw hag.1 hag.2.2 hs hok
    · obtain ⟨h1, h2, h3, h4⟩ := hag
      simp only [raPlain, hkn] at hs
      split at hs
      · rename_i h6
        simp only [Option.map_eq_some_iff] at hs
        obtain ⟨⟨s₁, y⟩, h7, h8⟩ := hs
        cases h8
        obtain ⟨q', h10, h11, h12⟩ := access t w.s l a k q b s₁ l' f hat h7
        obtain ⟨s', p', h13, h14, h15, h16⟩ := step_sim hf hw.st hp (h10 hok) h11
        have hna := nalloc_same (.inr (by rw [h3]; rfl)) h13
        have hfr : okWFresh R.cfg D.s (D.pc t) (.step (choiceOf b)) := fresh_of hf hw.st hp (h10 hok)
        have hst : wstep R.cfg true t D.s (D.pc t) (.step (choiceOf b)) = some (D.s.store t n at' (at' || true) ns s', p', none) := by
          simp only [wstep, h1, h2, h3, h4, h6, h13]; rfl
        refine .after hf (hw.store t n at' (at' || true) ns h14 hna) h15 ?_ h12 (WMoves.one hfr hst) h16 (upn rfl)
        refine .of_not_check (tstep_not_check h13 ?_ ?_) <;> intro x y hpc <;> rw [hpc] at h3 <;> cases h3
      · rename_i h6
        refine ub ⟨.go, ?_, ?_⟩ hs
        · simp only [wstep, h1, h2, h4, if_neg h6]
        · exact fresh_none h1 h2
    · obtain ⟨H, h1⟩ := hag
      cases b <;> simp only [reduceCtorEq] at hs
      · split at hs
        · rename_i h6
          simp only [raPlain, List.all_nil, if_true, Option.map_eq_some_iff] at hs
          obtain ⟨⟨s₁, y⟩, h7, h8⟩ := hs
          cases h8
          refine plain (by rw [h1]; rfl) (by rw [h1]; rfl) (by rw [h1]; rfl) (by rw [h1]; rfl) (by rw [h1]; rfl) ?_ rfl h7 rfl hok
          rw [h1]
          rw [hw.view, hw.acc] at h6
          exact h6
        · cases hs
      · simp only [raPlain, List.all_nil, if_true, Option.map_eq_some_iff] at hs
        obtain ⟨⟨s₁, y⟩, h7, h8⟩ := hs
        cases h8
        exact plain (by rw [h1]; rfl) (by rw [h1]; rfl) (by rw [h1]; rfl) (by rw [h1]; rfl) (by rw [h1]; rfl) (by rw [h1]; rfl) rfl h7 rfl hok
  | read alt i =>
    simp only [raAccess] at hs
    simp only [raOk] at hok
    rcases hk : a.kind l with ns | ⟨x, ord⟩ | ⟨x, won⟩ | ⟨n, race⟩ | ⟨x, y, ord⟩ | ⟨x, won⟩ | ⟨x, won, ns⟩ | ⟨n, at', ns⟩ | ⟨n, race⟩ <;>
      rw [hk] at hag <;> simp only [hk, reduceCtorEq] at hs hok
    · obtain ⟨h1, lc, h2, h3, h4⟩ := hag
      exact load (b := .go) h2 h3 h1 (h4 alt) (ok_sfresh hat hk hok) hs
    · exact fail hag.2.2 hs (.inl ⟨rfl, hag.2.1⟩)
    · obtain ⟨h1, rfl, rfl, rfl⟩ := hag
      have hq : q = .eHead := by revert hp; rw [h1]; intro hp; cases hp; rfl
      subst hq
      split at hs
      · exact load (b := .spur) (alt := true) (lc := .tail) rfl (by intro n h; cases h) (by rw [h1]; rfl) (by rw [h1]; rfl) trivial hs
      · exact load (b := .go) (alt := false) (lc := .head) rfl (by intro n h; cases h) (by rw [h1]; rfl) (by rw [h1]; rfl) trivial hs
    · obtain ⟨-, h1, k', T, y, h2, h3⟩ := hag
      simp only [Option.bind_eq_some_iff] at hs
      obtain ⟨y', h4, h5⟩ := hs
      split at h5
      · cases h5
      · rename_i h6
        cases h5
        exact fail h1 h4 (.inr ⟨rfl, by simpa using h6, k', T, y, h2, h3⟩)
    · exact fail hag.2.2 hs (.inl ⟨rfl, hag.2.1⟩)
  | torn j i x =>
    simp only [raAccess] at hs
    split at hs
    · rename_i n ord hk
      rw [hk] at hag
      obtain ⟨h1, lc, h2, h3, h4⟩ := hag
      cases h2
      split at hs
      · rename_i h5
        simp only [Option.map_eq_some_iff] at hs
        obtain ⟨⟨s₁, y⟩, h6, h7⟩ := hs
        cases h7
        rw [hw.view, hw.top, hw.pl, hw.acc] at h5
        obtain ⟨h51, h52, h53, h54, h55⟩ := h5
        obtain ⟨q', -, h8, h9⟩ := access t _ l a k q .go s₁ l' f hat h6
        obtain ⟨rfl, F, h10, h11, h12⟩ := torn_sim hi hf hw.st hp (h4 false) h51 h52 h53 h54 h55 (hw.mval _ h3 i h53).ver h8
        refine .after hf (hw.recv t (.next n) i .acquire) h11 ?_ h9 (WMoves.one (ch := .torn j i ⟨none, 0⟩) (e := none) trivial ?_) (.refl _) (upn rfl)
        · simpa [WSt.recv] using h12
        · simp only [wstep, h10]
          rw [if_pos ⟨h51, h52, h53, h54⟩]
      · cases hs
    · cases hs
  | race b =>
    simp only [raAccess] at hs
    rcases hk : a.kind l with ns | ⟨x, ord⟩ | ⟨x, won⟩ | ⟨n, race⟩ | ⟨x, y, ord⟩ | ⟨x, won⟩ | ⟨x, won, ns⟩ | ⟨n, at', ns⟩ | ⟨n, race⟩ <;>
      rw [hk] at hag <;> simp only [hk, reduceCtorEq] at hs
    · obtain ⟨bb, v, o, h1, h2⟩ := hag
      rw [hw.view, hw.dep, hw.acc, hw.top] at hs
      split at hs
      · cases hs
      · rename_i h6
        simp only [Option.map_eq_some_iff] at hs
        obtain ⟨l₁, h7, h8⟩ := hs
        cases h8
        obtain ⟨x, q', h9, h10⟩ := spec_goal (w := w.s) hat hk h7
        have h11 : o.ver ≠ D.s.s.heap.poolVer := fun he => by
          have := hi.oi.spec t o n (by rw [h1]; rfl) h2 he
          exact h6 ⟨this.1, this.2.1⟩
        have hst : wstep R.cfg true t D.s (D.pc t) (.race none) = some (D.s.plain t [] D.s.s, .alloc bb v (.cas o none), none) := by
          rw [h1]
          simp only [wstep, specOf, h2, Option.map_some, if_neg h6]
        rw [h1] at hp
        cases hp with
        | @alloc _ _ _ a' h3 =>
          cases a' <;> simp only [ARel] at h3
          cases h9
          have h12 : ARel R D.s.s.heap.nalloc D.s.s.heap.poolVer (.cas o none) (.cas _ x) := ⟨h3, .inr (Nat.lt_of_le_of_ne h3.le h11)⟩
          exact .goal hf (hw.same t []) (p := .alloc bb v (.cas o none)) (.alloc _ _ h12) trivial h10
            (WMoves.one (ch := .race none) (e := none) trivial hst) (.refl _) (upn rfl)
    · obtain ⟨H, h1⟩ := hag
      rw [hw.view, hw.acc, hw.st.mem.data] at hs
      split at hs
      · cases hs
      · rename_i h6
        simp only [Option.map_eq_some_iff] at hs
        obtain ⟨l₁, h7, h8⟩ := hs
        cases h8
        have hp' := hp
        rw [h1] at hp'
        cases hp' with
        | cData h3 h4 =>
          obtain ⟨v, h10⟩ := copy_goal (w := w.s) hat hk h7
          have hst : wstep R.cfg true t D.s (D.pc t) (.step (.garbage v)) = some (D.s.plain t [] D.s.s, .cCas H n v, none) := by
            rw [h1]
            simp only [wstep, casOf, loadOf, touch, storeOf, garbageOf, List.all_nil, if_true, if_neg h6]
          exact .goal hf (hw.same t []) (p := .cCas H n v) (.cCas v h3 h4) trivial h10
            (WMoves.one (ch := .step (.garbage v)) (e := none) (by rw [h1]; exact trivial) hst) (.refl _) (upn rfl)
  | _ => simp [raAccess] at hs

/-- One step of the program text. -/
theorem ra_step (hf : R.Faithful) {n h} (hx : WFreshExec R.cfg true n h D) {w w' : RaSt R α} (hw : RaRel R D.s w) {tp tp'}
    (hp : ThreadRel R D.s.s (D.s.view t) tp (D.pc t)) {ch e}
    (hs : (raMach true (program R α)).step t w tp ch = some (w', tp', e)) (hok : raOk w tp ch) : Result R D t e.toList w' tp' := by
  obtain ⟨q, n', hq, hp, hlr⟩ := hp
  have idle : q = .idle → D.pc t = .idle := by
    rintro rfl
    generalize D.pc t = p at hp
    cases hp
    rfl
  have upn : ∀ {v : WSt α} {V : View Queue.Loc}, v.view = upd D.s.view t V → ∀ u, u ≠ t → v.view u = D.s.view u := by
    intro v V h u hu; rw [h, upd_ne _ _ _ hu]
  simp only [raMach] at hs
  split at hs
  · rename_i o
    simp only [Option.map_eq_some_iff] at hs
    obtain ⟨⟨l, a⟩, h1, h2⟩ := hs
    cases h2
    have hid := idle hq
    obtain ⟨q', h3, h4⟩ := call_goal t o l a h1
    obtain ⟨s', p', h5, h6, h7, h8⟩ := step_sim (t := t) (s := D.s.s) (p := .idle) (ch := .call o) (w' := w.s) (q' := q') (e := some (.inv t o)) hf hw.st .idle
      trivial (by simp only [ststep, h3]; rfl)
    have h9 : s' = D.s.s := by
      have h5 : (start R.cfg o).map (fun p => (D.s.s, p, some (Event.inv t o))) = some (s', p', some (.inv t o)) := h5
      simp only [Option.map_eq_some_iff] at h5
      obtain ⟨x, -, h5⟩ := h5
      cases h5
      rfl
    subst h9
    have hst : wstep R.cfg true t D.s (D.pc t) (.step (.base (.call o))) = some (D.s.plain t [] D.s.s, p', some (.inv t (o, (D.s.view t).tick t))) := by
      rw [hid]
      simp only [wstep, casOf, loadOf, touch, storeOf, garbageOf, ordered, List.all_nil, if_true,
        show tstep R.cfg t D.s.s .idle (.base (.call o)) = _ from h5]
      rfl
    rw [hw.view]
    refine .goal hf (hw.same t []) h7 ?_ h4 (WMoves.one (ch := .step (.base (.call o))) (e := some _) (by rw [hid]; exact trivial) hst) (.refl _) (upn rfl)
    exact .of_not_check (tstep_not_check h5 (by intro x y hpc; cases hpc) (by intro x y hpc; cases hpc))
  · cases hs
    have hid := idle hq
    refine ⟨{ D.s with view := upd D.s.view t ((D.s.view t).tick t), posts := D.s.posts ++ [(D.s.view t).tick t] }, .idle,
      WMoves.one (ch := .post) (e := none) trivial (by rw [hid]; rfl), ?_, .refl _, upn rfl, .idle, 0, rfl, .idle, trivial⟩
    exact ⟨hw.st, hw.top, by simp only [hw.view], hw.dep, hw.acc, by simp only [hw.view, hw.posts], hw.pl, hw.mview, hw.mval⟩
  · rename_i i
    simp only [Option.map_eq_some_iff] at hs
    obtain ⟨u, h1, h2⟩ := hs
    cases h2
    have hid := idle hq
    rw [hw.posts] at h1
    refine ⟨{ D.s with view := upd D.s.view t (((D.s.view t).join u).tick t) }, .idle,
      WMoves.one (ch := .wait i) (e := none) trivial (by rw [hid]; simp only [wstep, h1]), ?_, .refl _, upn rfl, .idle, 0, rfl, .idle, trivial⟩
    exact ⟨hw.st, hw.top, by simp only [hw.view], hw.dep, hw.acc, hw.posts, hw.pl, hw.mview, hw.mval⟩
  · cases hs
    obtain ⟨m, rfl, hl⟩ : ∃ m, n' = m + 1 ∧ Leads m At _ _ q := hq
    exact ⟨D.s, D.pc t, ⟨0, 0, .stay⟩, hw, .refl _, fun _ _ => rfl, q, 0, refines.fin _ q (Leads.stuck hl rfl), hp, hlr⟩
  · simp only [Option.map_eq_some_iff] at hs
    obtain ⟨⟨l, k⟩, h1, h2⟩ := hs
    cases h2
    obtain ⟨m, rfl, hl⟩ : ∃ m, n' = m + 1 ∧ Leads m At _ _ q := hq
    obtain ⟨m', rfl, hl'⟩ := Leads.ctl refines hl h1
    exact ⟨D.s, D.pc t, ⟨0, 0, .stay⟩, hw, .refl _, fun _ _ => rfl, q, _, ⟨_, rfl, hl'⟩, hp, hlr⟩
  · rename_i l a k ch _ _
    simp only [Option.map_eq_some_iff] at hs
    obtain ⟨⟨w₁, l₁, f⟩, h1, h2⟩ := hs
    cases h2
    obtain ⟨m, rfl, hl⟩ : ∃ m, n' = m + 1 ∧ Leads m At _ _ q := hq
    exact ra_access hf hx hw hp hlr (Leads.stuck hl rfl) h1 hok
  · rename_i r
    cases hs
    cases (show q = .ret r from hq)
    have hid : D.pc t = .ret r := by
      generalize D.pc t = p at hp
      cases hp
      rfl
    rw [hw.view]
    refine ⟨D.s.plain t [] D.s.s, .idle, WMoves.one (ch := .step (.base .go)) (e := some _) ?_ ?_, hw.same t [], .refl _, upn rfl, .idle, 0, rfl, .idle, trivial⟩
    · rw [hid]; exact trivial
    · rw [hid]; rfl
  · cases hs

end

theorem ThreadRel.mono {s s' : St α} {V tp p} (h : ThreadRel R s V tp p) (hg : GrowsQ s s') : ThreadRel R s' V tp p := by
  obtain ⟨q, n, h1, h2, h3⟩ := h
  exact ⟨q, n, h1, h2.mono hg.1.1 hg.1.2 hg.2.1 hg.2.2, h3.mono hg.1.1 ⟨fun _ => Nat.le_refl _, fun _ => Nat.le_refl _⟩⟩

/-- Every execution of the program text under release/acquire memory is one of the machine of `Queue/Weak`, with the same history and views. -/
theorem ra_simulated (hf : R.Faithful) {n : Nat} (hn : n + 1 ≤ R.limit) {h} {C : RaConf R α} (hx : RaTextExec R true n h C) :
    ∃ D : WConf α, WFreshExec R.cfg true n h D ∧ RaRel R D.s C.s ∧ ∀ t, ThreadRel R D.s.s (D.s.view t) (C.pc t) (D.pc t) := by
  induction hx with
  | refl =>
    have h0 := ConfRel.initial (α := α) hf hn
    refine ⟨_, .refl _, ⟨h0.st, rfl, rfl, rfl, rfl, rfl, rfl, fun _ _ => rfl, fun l hl i _ => word_rel h0.st hl⟩, fun t => ⟨.idle, 0, rfl, .idle, trivial⟩⟩
  | @step h C t ch w' tp' e _ hs hok ih =>
    obtain ⟨D, hx, hw, hp⟩ := ih
    obtain ⟨v', p', ⟨a, b, h1⟩, h2, h3, h4, h5⟩ := ra_step hf hx hw (hp t) hs hok
    refine ⟨_, h1.steps rfl rfl hx, h2, fun u => ?_⟩
    by_cases hu : u = t
    · subst hu; simpa using h5
    · simp only [upd_ne _ _ _ hu]
      rw [h4 u hu]
      exact (hp u).mono h3

end Verif.Queue.Code
