import Verif.Stack.WeakText
import Verif.Stack.TextSim
import Verif.Stack.WeakSim

/-!
# Stack: the program text under release/acquire memory refines the machine of `Stack/Weak` (C62)

No further code of /repo is modelled here.
-/

namespace Verif.Stack.Code
open Lin Text

variable {α : Type} {R : Rep}

/-- Shared memories that correspond to each other. -/
structure RaRel (R : Rep) (v : WSt α) (w : RaSt R α) : Prop where
  st : StRel R v.s w.s
  top : w.top = v.top
  view : w.view = v.view
  dep : w.dep = v.dep
  acc : w.acc = v.acc
  posts : w.posts = v.posts
  mview : ∀ l i, (w.msg l i).view = (v.msg l i).view
  mval : ∀ l i, i ≤ v.top l → SnapRel R v.s.heap.nalloc (v.s.word l).ver (v.msg l i).val (w.msg l i).val

theorem word_rel {s : St α} {w : SSt R.K α} (h : StRel R s w) (l : Stack.Loc) :
    SnapRel R s.heap.nalloc (s.word l).ver (s.word l) (word w l) := by
  cases l
  · exact h.tosSnap
  · exact h.mem.poolSnap

theorem grows_word {s s' : St α} (h : GrowsS s s') (l : Stack.Loc) : (s.word l).ver ≤ (s'.word l).ver := by
  cases l
  · exact h.2
  · exact h.1.2

theorem RaRel.plain {v : WSt α} {w : RaSt R α} (h : RaRel R v w) (t : Nat) (ns : List Nat) {s' : St α} {w' : SSt R.K α} (hs : StRel R s' w')
    (hg : GrowsS v.s s') : RaRel R (v.plain t ns s') (w.plain t ns w') where
  st := hs
  top := h.top
  view := by simp only [RaSt.plain, WSt.plain, h.view]
  dep := h.dep
  acc := by simp only [RaSt.plain, WSt.plain, h.view, h.acc, h.st.mem.nalloc, hs.mem.nalloc]
  posts := h.posts
  mview := h.mview
  mval l i hi := (h.mval l i hi).mono hg.1.1 (grows_word hg l)

theorem RaRel.rmwView {v : WSt α} {w : RaSt R α} (h : RaRel R v w) (t : Nat) (l : Stack.Loc) : w.rmwView t l = v.rmwView t l := by
  simp only [RaSt.rmwView, WSt.rmwView, h.view, h.mview, h.top]

theorem RaRel.rmw {v : WSt α} {w : RaSt R α} (h : RaRel R v w) (t : Nat) (lc : Stack.Loc) {s' : St α} {w' : SSt R.K α} (hs : StRel R s' w')
    (hg : GrowsS v.s s') : RaRel R (v.rmw t lc s') (w.rmw t lc w') where
  st := hs
  top := by simp only [RaSt.rmw, WSt.rmw, h.top]
  view := by simp only [RaSt.rmw, WSt.rmw, h.view, h.rmwView]
  dep := h.dep
  acc := h.acc
  posts := h.posts
  mview l i := by
    simp only [RaSt.rmw, WSt.rmw, h.rmwView, h.top, upd_apply]
    by_cases hl : l = lc
    · subst hl
      by_cases hi : i = v.top l + 1
      · simp [hi]
      · simp [hi, h.mview]
    · simp [hl, h.mview]
  mval l i hi := by
    simp only [RaSt.rmw, WSt.rmw, h.top, upd_apply] at hi ⊢
    by_cases hl : l = lc
    · subst hl
      by_cases hi' : i = v.top l + 1
      · simpa [hi'] using word_rel hs l
      · have : i ≤ v.top l := by simp at hi; omega
        simpa [hi', upd_apply] using (h.mval l i this).mono hg.1.1 (grows_word hg l)
    · simp [hl] at hi
      simpa [hl] using (h.mval l i hi).mono hg.1.1 (grows_word hg l)

theorem RaRel.recv {v : WSt α} {w : RaSt R α} (h : RaRel R v w) (t : Nat) (l : Stack.Loc) (i : Nat) (ord : Order) :
    RaRel R (v.recv t l i ord) (w.recv t l i ord) where
  st := h.st
  top := h.top
  view := by
    have : w.readView t l i ord = v.readView t l i ord := by
      cases ord <;> simp only [RaSt.readView, WSt.readView, h.view, h.mview]
    simp only [RaSt.recv, WSt.recv, this, h.view]
  dep := by cases ord <;> simp only [RaSt.recv, WSt.recv, h.dep, h.mview]
  acc := h.acc
  posts := h.posts
  mview := h.mview
  mval := h.mval

/-- What the machine of `Stack/Weak` takes the next access for. -/
def Agrees (R : Rep) (w : SSt R.K α) (s : St α) (p : PC α) (l : Loc R.K α) (a : LAcc R α) : Kind (Loc R.K α) (SChoice R.K (Op α) α) → Prop
  | .plain ns => casOf p = none ∧ loadOf p = none ∧ touch p = ns
  | .load x ord => casOf p = none ∧ ∃ lc, locOf x = some lc ∧ loadOf p = some (lc, ord)
  | .cas x won => loadOf p = none ∧ ∃ lc o, locOf x = some lc ∧ casOf p = some (lc, o) ∧
      ∀ t ch s' l' f, a.run t w l ch = some (s', l', f) → won l' = true → ch = .go ∧ (s.word lc).v = o.v
  | .spec n _ => casOf p = none ∧ loadOf p = none ∧ touch p = [] ∧
      ∃ lc o, specSnap p = some (lc, o) ∧ o.v.ptr = some n
  | _ => False

theorem kind_agrees (hf : R.Faithful) {s : St α} {w : SSt R.K α} (hs : StRel R s w) {l : Loc R.K α} {a : LAcc R α} {k p q}
    (hat : Core l (.stm (.acc a) :: k) q) (hp : PCAt R s p q) : Agrees R w s p l a (a.kind l) := by
  have hL := hs.mem.limit
  have hcas : ∀ {removes} {o : Snap}, SnapRel R s.heap.nalloc s.tosVer o l.old_tos → ∀ t ch s' l' f,
      (casTos (R := R) (α := α) removes).run t w l ch = some (s', l', f) → l'.cas = true → ch = .go ∧ (s.word .tos).v = o.v := by
    intro removes o ho t ch s' l' f hr hw
    simp only [casTos] at hr
    cases ch <;> simp at hr
    · split at hr
      · rename_i he
        refine ⟨rfl, ?_⟩
        rw [hs.tos, ho.val] at he
        exact (hf.eq_iff (hs.ok.mono hL) (ho.ok.mono hL)).1 he
      · cases hr; cases hw
    · obtain ⟨-, rfl, -⟩ := hr; cases hw
  have hcas' : ∀ {removes} {o : Snap}, SnapRel R s.heap.nalloc s.heap.poolVer o l.fl.old_pool → ∀ t ch s' l' f,
      ((port R α).casPool (O := Op α) removes).run t w l ch = some (s', l', f) → l'.fl.cas = true →
      ch = .go ∧ (s.word .pool).v = o.v := by
    intro removes o ho t ch s' l' f hr hw
    simp only [Port.casPool, Port.acc, port] at hr
    cases ch <;> simp only [Option.map_none, Option.map_some, reduceCtorEq] at hr
    · by_cases he : w.mem.pool = l.fl.old_pool.v
      · refine ⟨rfl, ?_⟩
        rw [hs.mem.pool, ho.val] at he
        exact (hf.eq_iff (hs.mem.okPool.mono hL) (ho.ok.mono hL)).1 he
      · erw [if_neg he] at hr; cases hr; cases hw
    · cases hr; cases hw
  generalize hk : Item.stm (.acc a) :: k = K at hat
  cases hat with
  | alloc hc ha =>
    subst hk
    cases hp with
    | @alloc _ _ x _ h1 h2 =>
      cases ha with
      | load => cases x <;> simp only [ARel] at h2; exact ⟨rfl, .pool, rfl, rfl⟩
      | os => cases x <;> simp only [ARel] at h2; exact ⟨rfl, rfl, rfl⟩
      | @read o n ho hn =>
        cases x <;> simp only [ARel] at h2
        rename_i o'
        have h3 : o'.v.ptr = some n := by rw [← hn, h2.val, hf.node (h2.ok.mono hL)]
        rw [show (port R α).readLink.kind l = .spec n _ by simp only [Port.readLink, Port.acc, ho, hn]; rfl]
        exact ⟨rfl, rfl, rfl, .pool, o', rfl, h3⟩
      | @cas o z n ho hn hz =>
        cases x <;> simp only [ARel] at h2
        subst ho
        exact ⟨rfl, .pool, _, rfl, rfl, hcas' h2.1⟩
  | free hc hd =>
    subst hk
    cases hp with
    | @free _ _ _ x _ h1 h2 h3 =>
      cases hd with
      | load => cases x <;> simp only [DRel] at h3; exact ⟨rfl, .pool, rfl, rfl⟩
      | set hn =>
        cases x <;> simp only [DRel] at h3
        refine ⟨rfl, rfl, ?_⟩
        change _ = l.fl.n.toList
        rw [show l.fl.n = some _ from hn]
        rfl
      | cas hn ho =>
        cases x <;> simp only [DRel] at h3
        subst ho
        exact ⟨rfl, .pool, _, rfl, rfl, hcas' h3⟩
  | fin => simp at hk
  | constr hc hn => cases hk; cases hp; exact ⟨rfl, rfl, by simp [touch, port, hn]⟩
  | lload | pload | cload | eload => cases hk; cases hp; exact ⟨rfl, .tos, rfl, rfl⟩
  | lcas _ _ _ ho | pcas _ _ ho | ccas _ ho => cases hk; cases hp; subst ho; exact ⟨rfl, .tos, _, rfl, rfl, hcas (by assumption)⟩
  | @ptest l thr o n h1 h2 h3 h4 h5 =>
    cases hk
    cases hp with
    | @ptest _ o' _ h6 =>
      have h7 : o'.v.ptr = some n := by rw [← h4, h6.val, hf.node (h6.ok.mono hL)]
      simp only [readNextSpec, h5]
      exact ⟨rfl, rfl, rfl, .tos, o', rfl, h7⟩
  | rsv => cases hk; cases hp; exact ⟨rfl, rfl, rfl⟩
  | _ => cases hk; cases hp; exact ⟨rfl, rfl, by simp_all [touch, port]⟩

theorem inv_of_rel (hf : R.Faithful) {s : St α} {w : SSt R.K α} (hs : StRel R s w) {p : PC α} {q : SPC R.K α} (h : PCAt R s p q)
    (w' : SSt R.K α) : TextInv R w' q := by
  have h2 := hs.mem.limit
  have h3 : ∀ q, okPtr (· < s.heap.nalloc) q → ∀ m, R.K.node (R.K.hnd q) = some m → m < R.limit := by
    intro q hq m hm
    rw [hf.words.node_hnd q (okPtr.mono h2 hq)] at hm
    have := hq m hm
    omega
  cases h <;> first | exact trivial | exact h3 _ (by assumption) | assumption

theorem squiet_sim (hf : R.Faithful) {s : St α} {w : SSt R.K α} (hs : StRel R s w) {p : PC α} {q q' : SPC R.K α} (hp : PCAt R s p q)
    (hq : squiet R q = some q') : ∃ p', quiet R.cfg p = some p' ∧ PCAt R s p' q' := by
  have hL := hs.mem.limit
  have hnode : ∀ {o : Snap} {o' : SSnap R.K} {c}, SnapRel R s.heap.nalloc c o o' → R.K.node (R.K.ptr o'.v) = o.v.ptr := fun h => by
    rw [h.val, hf.node (h.ok.mono hL)]
  cases hp with
  | ptest thr h =>
    simp only [squiet, hnode h] at hq
    simp only [quiet]
    split at hq <;> cases hq
    exact ⟨_, if_pos (by assumption), .ret _⟩
  | ctest rev thr h =>
    simp only [squiet, hnode h] at hq
    simp only [quiet]
    split at hq <;> cases hq
    · exact ⟨_, if_pos (by assumption), .ret _⟩
    · exact ⟨_, if_neg (by assumption), .ccas _ _ h⟩
  | @alloc b k a a' h1 h2 =>
    cases a' <;> simp only [squiet, reduceCtorEq] at hq
    cases a <;> simp only [ARel] at h2
    rw [hnode h2] at hq
    simp only [quiet, Rep.cfg]
    split at hq <;> cases hq
    exact ⟨_, if_pos (by assumption), onNull_rel h1⟩
  | rsv k h => cases k <;> simp only [squiet, reduceCtorEq] at hq; cases hq; exact ⟨_, rfl, .ret _⟩
  | _ => simp [squiet] at hq

/-- A load, or a failing compare-exchange, that reads an old message. -/
theorem read_sim (hf : R.Faithful) {t : Nat} {s : St α} {w w' : SSt R.K α} (hs : StRel R s w) {p : PC α} {q q' : SPC R.K α} (hp : PCAt R s p q)
    {lc : Stack.Loc} {ord : Order} {ch : SChoice R.K (Op α) α} {e} (hr : readOf p = some (lc, ord, ch.base)) (hc : ch = .go ∨ ch = .spur) {o : Snap}
    {x : SSnap R.K} (hx : SnapRel R s.heap.nalloc (s.word lc).ver o x) (hst : ststep R t (withWord w x lc) q ch = some (w', q', e)) :
    ∃ s' p', tstep R.cfg t (s.withWord o lc) p ch.base = some (s', p', none) ∧ PCAt R s p' q' := by
  have hL := hs.mem.limit
  cases hp with
  | alloc b h1 h2 =>
    rename_i k a a'
    cases a <;> cases a' <;> simp only [ARel] at h2 <;> simp [readOf, loadOf, casOf] at hr <;> obtain ⟨rfl, rfl, hr⟩ := hr
    · rcases hc with rfl | rfl <;> simp [SChoice.base] at hr
      simp [ststep, saStep] at hst
      obtain ⟨rfl, rfl, rfl⟩ := hst
      exact ⟨_, _, rfl, .alloc _ h1 hx⟩
    · rcases hc with rfl | rfl <;> simp [SChoice.base] at hr
      simp [ststep, saStep] at hst
      obtain ⟨rfl, rfl, rfl⟩ := hst
      exact ⟨_, _, rfl, .alloc _ h1 hx⟩
  | free h1 h2 h3 =>
    rename_i k k' n d d'
    cases d <;> cases d' <;> simp only [DRel] at h3 <;> simp [readOf, loadOf, casOf] at hr <;> obtain ⟨rfl, rfl, hr⟩ := hr
    · rcases hc with rfl | rfl <;> simp [SChoice.base] at hr
      simp [ststep, sdStep] at hst
      obtain ⟨rfl, rfl, rfl⟩ := hst
      exact ⟨_, _, rfl, .free h1 h2 hx⟩
    · rcases hc with rfl | rfl <;> simp [SChoice.base] at hr
      simp [ststep, sdStep] at hst
      obtain ⟨rfl, rfl, rfl⟩ := hst
      exact ⟨_, _, rfl, .free h1 h2 hx⟩
  | lload r h1 h2 =>
    simp [readOf, loadOf] at hr
    obtain ⟨rfl, rfl, hr⟩ := hr
    rcases hc with rfl | rfl <;> simp [SChoice.base] at hr
    cases hst
    exact ⟨_, _, rfl, .lset _ h1 h2 hx⟩
  | pload thr =>
    simp [readOf, loadOf] at hr
    obtain ⟨rfl, rfl, hr⟩ := hr
    rcases hc with rfl | rfl <;> simp [SChoice.base] at hr
    cases hst
    exact ⟨_, _, rfl, .ptest _ hx⟩
  | cload rev thr =>
    simp [readOf, loadOf] at hr
    obtain ⟨rfl, rfl, hr⟩ := hr
    rcases hc with rfl | rfl <;> simp [SChoice.base] at hr
    cases hst
    exact ⟨_, _, rfl, .ctest _ _ hx⟩
  | eload =>
    simp [readOf, loadOf] at hr
    obtain ⟨rfl, rfl, hr⟩ := hr
    rcases hc with rfl | rfl <;> simp [SChoice.base] at hr
    cases hst
    refine ⟨_, _, rfl, ?_⟩
    rw [show (withWord w x .tos).tos = x.v from rfl, hx.val, hf.node (hx.ok.mono hL)]
    exact .ret _
  | lcas r h1 h2 h3 =>
    simp [readOf, loadOf, casOf] at hr
    obtain ⟨rfl, rfl, hr⟩ := hr
    rcases hc with rfl | rfl <;> simp [SChoice.base] at hr
    cases hst
    exact ⟨_, _, rfl, .lset _ h1 h2 hx⟩
  | pcas thr h1 h2 =>
    simp [readOf, loadOf, casOf] at hr
    obtain ⟨rfl, rfl, hr⟩ := hr
    rcases hc with rfl | rfl <;> simp [SChoice.base] at hr
    cases hst
    exact ⟨_, _, rfl, .ptest _ hx⟩
  | ccas rev thr h1 =>
    simp [readOf, loadOf, casOf] at hr
    obtain ⟨rfl, rfl, hr⟩ := hr
    rcases hc with rfl | rfl <;> simp [SChoice.base] at hr
    cases hst
    exact ⟨_, _, rfl, .ctest _ _ hx⟩
  | _ => simp [readOf, loadOf, casOf] at hr

/-- The continuation of a racing read. -/
def sspecOf (x : R.K.H) : SPC R.K α → Option (SPC R.K α)
  | .ptest thr o => some (.pcas thr o x)
  | .alloc b k (.test o) => some (.alloc b k (.cas o x))
  | _ => none

theorem race_goal (hf : R.Faithful) {w : SSt R.K α} {l l' : Loc R.K α} {a : LAcc R α} {k q} (hI : ∀ s, TextInv R (α := α) s q)
    (hat : At l (.stm (.acc a) :: k) q) {n race ch} (hk : a.kind l = .spec n race) (hr : race ch = some l') :
    ∃ x q', sspecOf x q = some q' ∧ Goal 60 l' k q' := by
  have go : ∀ {s : SSt R.K α} {x q'}, a.run 0 s l ch = some (s, l', .next) → ststep R 0 s q ch = some (s, q', none) → sspecOf x q = some q' →
      ∃ x q', sspecOf x q = some q' ∧ Goal 60 l' k q' := by
    intro s x q' h1 h2 h3
    obtain ⟨p', -, h4, h5⟩ := access hf 0 s l a k q ch s l' .next (hI s) hat h1
    rw [h2] at h4
    cases h4
    exact ⟨x, _, h3, h5⟩
  have hat' := hat.1
  generalize hK : Item.stm (.acc a) :: k = K at hat'
  cases hat' with
  | alloc hc ha =>
    subst hK
    cases ha with
    | @read o m ho hn =>
      subst ho
      have hn' : R.K.node (R.K.ptr l.fl.old_pool.v) = some m := hn
      simp only [Port.readLink, Port.acc, hn] at hk
      injection hk with h1 h2
      subst h2
      cases ch <;> simp only [reduceCtorEq, Option.some.injEq] at hr
      rename_i x
      subst hr
      refine go (s := { w with mem := { w.mem with poolVer := l.fl.old_pool.ver + 1 } }) (x := x) ?_ ?_ rfl
      · simp [Port.readLink, Port.acc, port, hn']
      · simp [ststep, saStep, port, hn']
    | _ => cases hk
  | free hc hd => subst hK; cases hd <;> cases hk
  | fin => simp at hK
  | @ptest l thr o m h1 h2 h3 h4 h5 =>
    cases hK
    subst h3
    simp only [readNextSpec, h5] at hk
    injection hk with h6 h7
    subst h7
    cases ch <;> simp only [reduceCtorEq, Option.some.injEq] at hr
    rename_i x
    subst hr
    refine go (s := { w with tosVer := l.old_tos.ver + 1 }) (x := x) ?_ ?_ rfl
    · simp [readNextSpec, h5]
    · simp [ststep, h4]
  | _ => cases hK; cases hk

theorem race_sim {v : WSt α} {t : Nat} {p : PC α} {q q' : SPC R.K α} (hp : PCAt R v.s p q) {x : R.K.H}
    (hq : sspecOf x q = some q') {lc o n} (ho : specSnap p = some (lc, o)) (hn : o.v.ptr = some n) (hst : o.ver ≠ (v.s.word lc).ver)
    (hk : ((v.view t).join (v.dep t)).knows (v.acc n) = false) :
    ∃ p', wstep R.cfg t v p (.race none) = some (v.plain t [] v.s, p', none) ∧ PCAt R v.s p' q' := by
  cases hp with
  | ptest thr h =>
    cases hq
    cases ho
    refine ⟨_, by simp only [wstep, specOf, hn, Option.map_some, hk]; rfl, .pcas _ h (.inr ?_)⟩
    have := h.le
    exact Nat.lt_of_le_of_ne this hst
  | @alloc b k a a' h1 h2 =>
    cases a <;> cases a' <;> simp only [ARel] at h2 <;> simp only [specSnap, reduceCtorEq] at ho
    cases hq
    cases ho
    exact ⟨.alloc b k (.cas o none), by simp only [wstep, specOf, hn, Option.map_some, hk]; rfl,
      .alloc _ h1 ⟨h2, .inr (Nat.lt_of_le_of_ne h2.le hst)⟩⟩
  | _ => cases hq

theorem fresh_plain {cfg : Cfg} {s : St α} {p : PC α} (h : casOf p = none) : fresh cfg s p := by
  cases p <;> first | exact trivial | (simp [casOf] at h; done) | skip
  rename_i a
  cases a <;> first | exact trivial | simp [casOf] at h

/-- Steps of thread `t` of the machine of `Stack/Weak`. -/
abbrev WMoves (cfg : Cfg) (t : Nat) (v : WSt α) (p : PC α) (h : History (Op α × View Stack.Loc) (Ret α × View Stack.Loc)) (v' : WSt α) (p' : PC α) : Prop :=
  ∃ a b, Moves (wmach α cfg) (okWFresh cfg) (fun _ _ => false) t v p h v' p' a b

theorem WMoves.one {cfg : Cfg} {t : Nat} {v v' : WSt α} {p p' : PC α} {ch e} (hok : okWFresh cfg v p ch)
    (h : wstep cfg t v p ch = some (v', p', e)) : WMoves cfg t v p e.toList v' p' :=
  ⟨_, _, Moves.one (m := wmach α cfg) hok h⟩

/-- Threads that correspond to each other. -/
def ThreadRel (R : Rep) (s : St α) (tp : TPC (SSt R.K α) (Loc R.K α) (SChoice R.K (Op α) α) (Ret α)) (p : PC α) : Prop :=
  ∃ q n, Text.PCRel (smach α R) .err At n tp q ∧ PCAt R s p q

theorem goal_moves (hf : R.Faithful) {t : Nat} {v₀ v : WSt α} {p₀ : PC α} {h} {w : SSt R.K α} (hs : StRel R v.s w) {p : PC α} {q : SPC R.K α}
    (hp : PCAt R v.s p q) {l : Loc R.K α} {k} (hg : Goal 60 l k q) (hm : WMoves R.cfg t v₀ p₀ h v p) :
    ∃ p', WMoves R.cfg t v₀ p₀ h v p' ∧ ThreadRel R v.s (.run l k) p' := by
  rcases hg with hg | ⟨q', h1, h2⟩
  · exact ⟨p, hm, q, _, ⟨_, rfl, hg⟩, hp⟩
  · obtain ⟨p', h3, h4⟩ := squiet_sim hf hs hp h1
    obtain ⟨a, b, hm⟩ := hm
    have h5 : WMoves R.cfg t v p [] v p' := WMoves.one (ch := .skip) (e := none) trivial (by simp only [wstep, h3]; rfl)
    obtain ⟨a', b', h5⟩ := h5
    exact ⟨p', ⟨_, _, by simpa using hm.trans h5⟩, q', _, ⟨_, rfl, h2⟩, h4⟩

theorem after_moves (hf : R.Faithful) {t : Nat} {v₀ v : WSt α} {p₀ : PC α} {h} {w : SSt R.K α} (hs : StRel R v.s w) {p : PC α} {q : SPC R.K α}
    (hp : PCAt R v.s p q) {l : Loc R.K α} {k f} (hg : f.ifUb (q = .err) (Goal 60 l (f.rest k) q)) (hm : WMoves R.cfg t v₀ p₀ h v p) :
    ∃ p', WMoves R.cfg t v₀ p₀ h v p' ∧ ThreadRel R v.s (after l k f) p' := by
  cases f
  · exact goal_moves hf hs hp hg hm
  · exact goal_moves hf hs hp hg hm
  · exact ⟨p, hm, q, 0, hg, hp⟩

/-- An access. -/
theorem ra_access (hf : R.Faithful) {v : WSt α} {w w' : RaSt R α} (hw : RaRel R v w) {t : Nat} {p : PC α} {q : SPC R.K α} (hp : PCAt R v.s p q)
    {l l' : Loc R.K α} {a : LAcc R α} {k f} (hat : At l (.stm (.acc a) :: k) q)
    (hsp : ∀ lc o n, specSnap p = some (lc, o) → o.v.ptr = some n → o.ver = (v.s.word lc).ver →
      ((v.view t).join (v.dep t)).knows (v.acc n) = true) {ch}
    (hs : raAccess t w l a ch = some (w', l', f)) (hok : ∀ c, ch = .act c → a.ok w.s l c = true) :
    ∃ v' p', WMoves R.cfg t v p [] v' p' ∧ RaRel R v' w' ∧ GrowsS v.s v'.s ∧ ThreadRel R v'.s (after l' k f) p' := by
  have hI := inv_of_rel hf hw.st hp
  have hag := kind_agrees hf hw.st hat.1 hp
  have hkn : ∀ ns : List Nat, (ns.all fun n => (w.view t).knows (w.acc n)) = ns.all fun n => (v.view t).knows (v.acc n) := by
    intro ns; rw [hw.view, hw.acc]
  have plain : ∀ {ns : List Nat} {c s₁}, casOf p = none → loadOf p = none → touch p = ns → (ns.all fun n => (v.view t).knows (v.acc n)) = true →
      a.run t w.s l c = some (s₁, l', f) → w' = w.plain t ns s₁ → a.ok w.s l c = true →
      ∃ v' p', WMoves R.cfg t v p [] v' p' ∧ RaRel R v' w' ∧ GrowsS v.s v'.s ∧ ThreadRel R v'.s (after l' k f) p' := by
    rintro ns c s₁ h1 h2 rfl h4 h5 rfl h6
    obtain ⟨q', h7, h8, h9⟩ := access hf t w.s l a k q c s₁ l' f (hI _) hat h5
    obtain ⟨s', p', h10, h11, h12, h13⟩ := step_sim hf hw.st hp (h7 h6).1 h8
    have h14 : WMoves R.cfg t v p [] (v.plain t (touch p) s') p' := by
      refine WMoves.one (ch := .step c.base) (e := none) ⟨fresh_plain h1, ?_⟩ ?_
      · intro b hb
        have := (h7 h6).2 b
        cases c <;> simp [SChoice.base] at hb
        subst hb
        exact this rfl
      · simp only [wstep, h1, h2, h4, h10]; rfl
    obtain ⟨p'', h15, h16⟩ := after_moves hf (v := v.plain t (touch p) s') (w := s₁) h11 h12 h9 h14
    exact ⟨_, p'', h15, hw.plain t _ h11 h13, h13, h16⟩
  have read : ∀ {x lc ord c} {i : Nat}, locOf x = some lc → readOf p = some (lc, ord, SChoice.base c) → c = .go ∨ c = .spur →
      (match locOf x with
        | none => none
        | some lc =>
          if (w.view t).seen lc ≤ i ∧ i ≤ w.top lc then
            (a.run t (withWord w.s (w.msg lc i).val lc) l c).map fun x => (w.recv t lc i ord, x.2)
          else none) = some (w', l', f) →
      ∃ v' p', WMoves R.cfg t v p [] v' p' ∧ RaRel R v' w' ∧ GrowsS v.s v'.s ∧ ThreadRel R v'.s (after l' k f) p' := by
    intro x lc ord c i h1 h2 h3 h4
    simp only [h1] at h4
    split at h4
    · rename_i h5
      simp only [Option.map_eq_some_iff] at h4
      obtain ⟨⟨s₁, y⟩, h6, h7⟩ := h4
      cases h7
      rw [hw.view, hw.top] at h5
      obtain ⟨q', -, h8, h9⟩ := access hf t _ l a k q c s₁ l' f (hI _) hat h6
      obtain ⟨s', p', h10, h11⟩ := read_sim hf hw.st hp h2 h3 (hw.mval lc i h5.2) h8
      have h14 : WMoves R.cfg t v p [] (v.recv t lc i ord) p' := by
        refine WMoves.one (ch := .read i) (e := none) trivial ?_
        simp only [wstep, h2, if_pos h5, h10]; rfl
      obtain ⟨p'', h15, h16⟩ := after_moves hf (v := v.recv t lc i ord) hw.st h11 h9 h14
      exact ⟨_, p'', h15, hw.recv .., .refl _, h16⟩
    · cases h4
  cases ch with
  | act c =>
    have hok := hok c rfl
    simp only [raAccess] at hs
    rcases hk : a.kind l with ns | ⟨x, ord⟩ | ⟨x, won⟩ | ⟨n, race⟩ | ⟨x, y, ord⟩ | ⟨x, won⟩ | ⟨x, won, ns⟩ | ⟨n, b, ns⟩ | ⟨n, race⟩ <;> rw [hk] at hag <;> simp only [hk, reduceCtorEq] at hs
    · obtain ⟨h1, h2, h3⟩ := hag
      rw [hkn] at hs
      split at hs
      · rename_i h4
        simp only [Option.map_eq_some_iff] at hs
        obtain ⟨⟨s₁, y⟩, h5, h6⟩ := hs
        cases h6
        exact plain h1 h2 h3 h4 h5 rfl hok
      · rename_i h4
        cases hs
        refine ⟨v.plain t [] v.s, .err, ?_, hw.plain t [] hw.st (.refl _), .refl _, .err, 0, rfl, .err⟩
        refine WMoves.one (ch := .step .go) (e := none) ⟨fresh_plain h1, by simp⟩ ?_
        simp only [wstep, h1, h2, h3, if_neg h4]
    · obtain ⟨h1, lc, o, h2, h3, h4⟩ := hag
      simp only [h2] at hs
      split at hs
      · rename_i lc' s₁ l₁ f₁ h5 h6
        cases h5
        split at hs
        · rename_i h7
          cases hs
          obtain ⟨rfl, h8⟩ := h4 _ _ _ _ _ h6 h7
          obtain ⟨q', h9, h10, h11⟩ := access hf t w.s l a k q .go s₁ l' f (hI _) hat h6
          obtain ⟨s', p', h12, h13, h14, h15⟩ := step_sim hf hw.st hp (h9 hok).1 h10
          have h16 : WMoves R.cfg t v p [] (v.rmw t lc s') p' := by
            refine WMoves.one (ch := .step .go) (e := none) ⟨fresh_of hw.st hp (h9 hok).1, by simp⟩ ?_
            simp only [wstep, h3, if_pos h8, show tstep R.cfg t v.s p .go = _ from h12]; rfl
          obtain ⟨p'', h17, h18⟩ := after_moves hf (v := v.rmw t lc s') (w := s₁) h13 h14 h11 h16
          exact ⟨_, p'', h17, hw.rmw t lc h13 h15, h15, h18⟩
        · cases hs
      · cases hs
    · obtain ⟨h1, h2, h3, -⟩ := hag
      simp only [Option.map_eq_some_iff] at hs
      obtain ⟨⟨s₁, y⟩, h5, h6⟩ := hs
      cases h6
      exact plain h1 h2 h3 rfl h5 rfl hok
  | read i =>
    simp only [raAccess] at hs
    rcases hk : a.kind l with ns | ⟨x, ord⟩ | ⟨x, won⟩ | ⟨n, race⟩ | ⟨x, y, ord⟩ | ⟨x, won⟩ | ⟨x, won, ns⟩ | ⟨n, b, ns⟩ | ⟨n, race⟩ <;> rw [hk] at hag <;> simp only [hk, reduceCtorEq] at hs
    · obtain ⟨h1, lc, h2, h3⟩ := hag
      exact read (c := .go) h2 (by simp [readOf, h3, SChoice.base]) (.inl rfl) hs
    · obtain ⟨h1, lc, o, h2, h3, -⟩ := hag
      exact read (c := .spur) h2 (by simp [readOf, h1, h3, SChoice.base]) (.inr rfl) hs
  | race c =>
    simp only [raAccess] at hs
    rcases hk : a.kind l with ns | ⟨x, ord⟩ | ⟨x, won⟩ | ⟨n, race⟩ | ⟨x, y, ord⟩ | ⟨x, won⟩ | ⟨x, won, ns⟩ | ⟨n, b, ns⟩ | ⟨n, race⟩ <;> rw [hk] at hag <;> simp only [hk, reduceCtorEq] at hs
    obtain ⟨h1, h2, h3, lc, o, h4, h5⟩ := hag
    rw [hw.view, hw.dep, hw.acc] at hs
    split at hs
    · cases hs
    · rename_i h6
      simp only [Option.map_eq_some_iff] at hs
      obtain ⟨l₁, h7, h8⟩ := hs
      cases h8
      obtain ⟨x, q', h9, h10⟩ := race_goal hf (w := w.s) hI hat hk h7
      obtain ⟨p', h11, h12⟩ := race_sim hp h9 h4 h5 (fun he => h6 (hsp lc o n h4 h5 he)) (by simpa using h6)
      have h14 : WMoves R.cfg t v p [] (v.plain t [] v.s) p' := WMoves.one (ch := .race none) (e := none) trivial h11
      obtain ⟨p'', h15, h16⟩ := goal_moves hf (v := v.plain t [] v.s) hw.st h12 h10 h14
      exact ⟨_, p'', h15, hw.plain t [] hw.st (.refl _), .refl _, h16⟩
  | _ => simp [raAccess] at hs

/-- One step of the program text. -/
theorem ra_step (hf : R.Faithful) {v : WSt α} {w w' : RaSt R α} (hw : RaRel R v w) {t : Nat} {p : PC α} {tp tp'} (hp : ThreadRel R v.s tp p)
    (hsp : ∀ lc o n, specSnap p = some (lc, o) → o.v.ptr = some n → o.ver = (v.s.word lc).ver →
      ((v.view t).join (v.dep t)).knows (v.acc n) = true) {ch e}
    (hs : (raMach (program R α)).step t w tp ch = some (w', tp', e)) (hok : raOk w tp ch) :
    ∃ v' p', WMoves R.cfg t v p e.toList v' p' ∧ RaRel R v' w' ∧ GrowsS v.s v'.s ∧ ThreadRel R v'.s tp' p' := by
  obtain ⟨q, n, hq, hp⟩ := hp
  have idle : ∀ {q : SPC R.K α}, PCAt R v.s p q → q = .idle → p = .idle := by rintro q hp rfl; cases hp; rfl
  simp only [raMach] at hs
  split at hs
  · rename_i o
    simp only [Option.map_eq_some_iff] at hs
    obtain ⟨⟨l, a⟩, h1, h2⟩ := hs
    cases h2
    cases idle hp hq
    obtain ⟨q', h3, h4⟩ := call_goal t o l a h1 hok
    obtain ⟨s', p', h5, h6, h7, h8⟩ := step_sim (t := t) (ch := .call o) (w' := w.s) (q' := q') (e := some (.inv t o)) hf hw.st (.idle) trivial
      (by simp only [ststep, h3]; rfl)
    have h9 : WMoves R.cfg t v .idle [.inv t (o, (v.view t).tick t)] (v.plain t [] s') p' := by
      refine WMoves.one (ch := .step (.call o)) (e := some _) ⟨trivial, ?_⟩ ?_
      · intro b hb; cases hb; exact hok b rfl
      · simp only [wstep, casOf, loadOf, touch, List.all_nil, if_true, show tstep R.cfg t v.s .idle (.call o) = _ from h5]; rfl
    obtain ⟨p'', h10, h11⟩ := goal_moves hf (v := v.plain t [] s') (w := w.s) h6 h7 h4 h9
    rw [hw.view]
    exact ⟨_, p'', h10, hw.plain t [] h6 h8, h8, h11⟩
  · cases hs
    cases idle hp hq
    refine ⟨{ v with view := upd v.view t ((v.view t).tick t), posts := v.posts ++ [(v.view t).tick t] }, .idle,
      WMoves.one (ch := .post) (e := none) trivial rfl, ?_, .refl _, .idle, 0, rfl, .idle⟩
    exact ⟨hw.st, hw.top, by simp only [hw.view], hw.dep, hw.acc, by simp only [hw.view, hw.posts], hw.mview, hw.mval⟩
  · rename_i i
    simp only [Option.map_eq_some_iff] at hs
    obtain ⟨u, h1, h2⟩ := hs
    cases h2
    cases idle hp hq
    rw [hw.posts] at h1
    refine ⟨{ v with view := upd v.view t (((v.view t).join u).tick t) }, .idle,
      WMoves.one (ch := .wait i) (e := none) trivial (by simp only [wstep, h1]), ?_, .refl _, .idle, 0, rfl, .idle⟩
    exact ⟨hw.st, hw.top, by simp only [hw.view], hw.dep, hw.acc, hw.posts, hw.mview, hw.mval⟩
  · cases hs
    obtain ⟨n', rfl, hl⟩ : ∃ n', n = n' + 1 ∧ Leads n' At _ _ q := hq
    exact ⟨v, p, ⟨0, 0, .stay⟩, hw, .refl _, q, 0, (refines hf).fin _ q (Leads.stuck hl rfl), hp⟩
  · simp only [Option.map_eq_some_iff] at hs
    obtain ⟨⟨l, k⟩, h1, h2⟩ := hs
    cases h2
    obtain ⟨n', rfl, hl⟩ : ∃ n', n = n' + 1 ∧ Leads n' At _ _ q := hq
    obtain ⟨n'', rfl, hl'⟩ := Leads.ctl (refines hf) hl h1
    exact ⟨v, p, ⟨0, 0, .stay⟩, hw, .refl _, q, _, ⟨_, rfl, hl'⟩, hp⟩
  · rename_i l a k ch _ _
    simp only [Option.map_eq_some_iff] at hs
    obtain ⟨⟨w₁, l₁, f⟩, h1, h2⟩ := hs
    cases h2
    obtain ⟨n', rfl, hl⟩ : ∃ n', n = n' + 1 ∧ Leads n' At _ _ q := hq
    exact ra_access hf hw hp (Leads.stuck hl rfl) hsp h1 (by rintro c rfl; exact hok)
  · rename_i r
    cases hs
    cases (show q = .ret r from hq)
    cases hp
    rw [hw.view]
    exact ⟨v.plain t [] v.s, .idle, WMoves.one (ch := .step .go) (e := some _) ⟨trivial, by simp⟩ rfl, hw.plain t [] hw.st (.refl _), .refl _,
      .idle, 0, rfl, .idle⟩
  · cases hs

theorem ThreadRel.mono {s s' : St α} {tp p} (h : ThreadRel R s tp p) (hg : GrowsS s s') : ThreadRel R s' tp p := by
  obtain ⟨q, n, h1, h2⟩ := h
  exact ⟨q, n, h1, h2.mono hg.1.1 hg.1.2 hg.2⟩

/-- Every execution of the program text under release/acquire memory is one of the machine of `Stack/Weak`, with the same history and views. -/
theorem ra_simulated (hf : R.Faithful) {n : Nat} (hn : n ≤ R.limit) {h} {C : RaConf R α} (hx : RaTextExec R n h C) :
    ∃ D : WConf α, WFreshExec R.cfg n h D ∧ RaRel R D.s C.s ∧ ∀ t, ThreadRel R D.s.s (C.pc t) (D.pc t) := by
  induction hx with
  | refl =>
    have h0 := ConfRel.initial (α := α) hf hn
    refine ⟨_, .refl _, ⟨h0.st, rfl, rfl, rfl, rfl, rfl, fun _ _ => rfl, fun l i _ => word_rel h0.st l⟩, fun t => ⟨.idle, 0, rfl, .idle⟩⟩
  | @step h C t ch w' tp' e _ hs hok ih =>
    obtain ⟨D, hx, hw, hp⟩ := ih
    obtain ⟨g, c, wc, hi, -⟩ := hx.inv
    obtain ⟨v', p', ⟨a, b, h1⟩, h2, h3, h4⟩ := ra_step hf hw (hp t) (hi.mem.spec t) hs hok
    refine ⟨_, h1.steps rfl rfl hx, h2, fun u => ?_⟩
    by_cases hu : u = t
    · subst hu; simpa using h4
    · simp only [upd_ne _ _ _ hu]
      exact (hp u).mono h3

end Verif.Stack.Code
