import Verif.Spsc.TextProps
import Verif.TextFollow

/-!
# `spsc_queue`: states that differ in stores that can no longer be read (C60)

No further code of /repo is modelled here.
-/

namespace Verif.Spsc
open Lin

variable {α : Type}

/-- Views of threads: `v` counts `a` more stores of `write_index_` and `b` more of `read_index_`. -/
structure View.Shift (a b : Nat) (v v' : View) : Prop where
  p : v.p = v'.p
  c : v.c = v'.c
  w : v.w = v'.w + a
  r : v.r = v'.r + b

/-- Released views: the same, but earlier stores do not matter. -/
structure View.Above (a b : Nat) (v v' : View) : Prop where
  p : v.p = v'.p
  c : v.c = v'.c
  w : max v.w a = v'.w + a
  r : max v.r b = v'.r + b

/-- Corresponding stores. -/
structure Msg.Shift (a b : Nat) (m m' : Msg) : Prop where
  val : m.val = m'.val
  cnt : m.cnt = m'.cnt
  view : View.Above a b m.view m'.view

/-- `s` has `a` more stores of `write_index_` and `b` more of `read_index_`, which come before all others and which no thread can read any more. -/
structure Shift (a b : Nat) (s s' : St α) : Prop where
  cell : s.cell = s'.cell
  lastP : s.lastP = s'.lastP
  lastC : s.lastC = s'.lastC
  acc : s.acc = s'.acc
  out : s.out = s'.out
  ctor : s.ctor = s'.ctor
  dtor : s.dtor = s'.dtor
  wlast : s.wlast = s'.wlast + a
  rlast : s.rlast = s'.rlast + b
  W : ∀ k, k ≤ s'.wlast → Msg.Shift a b (s.W (k + a)) (s'.W k)
  R : ∀ k, k ≤ s'.rlast → Msg.Shift a b (s.R (k + b)) (s'.R k)
  vp : View.Shift a b s.vp s'.vp
  vc : View.Shift a b s.vc s'.vc

theorem View.Shift.above {a b : Nat} {v v' : View} (h : View.Shift a b v v') : View.Above a b v v' :=
  ⟨h.p, h.c, by rw [h.w]; omega, by rw [h.r]; omega⟩

theorem View.Shift.join {a b : Nat} {v v' u u' : View} (h : View.Shift a b v v') (g : View.Above a b u u') : View.Shift a b (v.join u) (v'.join u') := by
  have h1 := g.w
  have h2 := g.r
  have h3 := h.w
  have h4 := h.r
  refine ⟨?_, ?_, ?_, ?_⟩ <;> simp only [View.join]
  · rw [h.p, g.p]
  · rw [h.c, g.c]
  · omega
  · omega

theorem Shift.rel {a b : Nat} {s s' : St α} (h : Shift a b s s') : s.rel = s'.rel := by
  have := (h.R s'.rlast (Nat.le_refl _)).cnt
  rwa [← h.rlast] at this

theorem Shift.refl (s : St α) : Shift 0 0 s s where
  cell := rfl
  lastP := rfl
  lastC := rfl
  acc := rfl
  out := rfl
  ctor := rfl
  dtor := rfl
  wlast := rfl
  rlast := rfl
  W _ _ := ⟨rfl, rfl, rfl, rfl, by simp, by simp⟩
  R _ _ := ⟨rfl, rfl, rfl, rfl, by simp, by simp⟩
  vp := ⟨rfl, rfl, rfl, rfl⟩
  vc := ⟨rfl, rfl, rfl, rfl⟩

/-- Both fail, or both succeed with related results. -/
def Both {X Y : Type} (r : X → Y → Prop) : Option X → Option Y → Prop
  | none, none => True
  | some x, some y => r x y
  | _, _ => False

theorem Both.iff {X Y : Type} {r : X → Y → Prop} {c c' : Prop} [Decidable c] [Decidable c'] {x : X} {y : Y} (h : c ↔ c') (hr : c → r x y) :
    Both r (if c then some x else none) (if c' then some y else none) := by
  by_cases hc : c
  · rw [if_pos hc, if_pos (h.1 hc)]; exact hr hc
  · rw [if_neg hc, if_neg fun h' => hc (h.2 h')]; trivial

theorem Both.map {X Y X' Y' : Type} {r : X → Y → Prop} {r' : X' → Y' → Prop} {x : Option X} {y : Option Y} {f : X → X'} {g : Y → Y'}
    (h : Both r x y) (hr : ∀ x y, r x y → r' (f x) (g y)) : Both r' (x.map f) (y.map g) := by
  cases x <;> cases y <;> first | exact h | exact hr _ _ h

/-- Related states, equal other results. -/
def Pairs {β : Type} (a b : Nat) (x y : St α × β) : Prop := Shift a b x.1 y.1 ∧ x.2 = y.2

section
variable {a b : Nat} {s s' : St α} {cfg : Cfg}

theorem Shift.touchP (h : Shift a b s s') (i : Nat) : Both (Shift a b) (s.touchP cfg i) (s'.touchP cfg i) := by
  unfold St.touchP
  exact Both.iff (by rw [h.lastC, h.vp.c]) fun _ => { h with lastP := by simp only [h.lastP, h.vp.p], vp := ⟨by simp only [h.vp.p], h.vp.c, h.vp.w, h.vp.r⟩ }

theorem Shift.touchC (h : Shift a b s s') (i : Nat) : Both (Shift a b) (s.touchC cfg i) (s'.touchC cfg i) := by
  unfold St.touchC
  exact Both.iff (by rw [h.lastP, h.vc.p]) fun _ => { h with lastC := by simp only [h.lastC, h.vc.c], vc := ⟨h.vc.p, by simp only [h.vc.c], h.vc.w, h.vc.r⟩ }

theorem Shift.construct (h : Shift a b s s') (i : Nat) (v : α) : Both (Shift a b) (s.construct cfg i v) (s'.construct cfg i v) := by
  unfold St.construct
  rw [h.cell]
  split
  · trivial
  · exact (h.touchP i).map fun x y h => { h with cell := by simp only [h.cell], ctor := by simp only [h.ctor] }

theorem Shift.destroyP (h : Shift a b s s') (i : Nat) : Both (Shift a b) (s.destroyP cfg i) (s'.destroyP cfg i) := by
  unfold St.destroyP
  rw [h.cell]
  split
  · exact (h.touchP i).map fun x y h => { h with cell := by simp only [h.cell], dtor := by simp only [h.dtor] }
  · trivial

theorem Shift.destroyC (h : Shift a b s s') (i : Nat) : Both (Shift a b) (s.destroyC cfg i) (s'.destroyC cfg i) := by
  unfold St.destroyC
  rw [h.cell]
  split
  · exact (h.touchC i).map fun x y h => { h with cell := by simp only [h.cell], dtor := by simp only [h.dtor] }
  · trivial

theorem Shift.readC (h : Shift a b s s') (i : Nat) : Both (Pairs a b) (s.readC cfg i) (s'.readC cfg i) := by
  unfold St.readC
  rw [h.cell]
  split
  · trivial
  · exact (h.touchC i).map fun x y h => ⟨h, rfl⟩

theorem Shift.loadWP (h : Shift a b s s') (j : Nat) : Both (Pairs a b) (s.loadWP (j + a)) (s'.loadWP j) := by
  unfold St.loadWP
  have hx := h.vp.w
  have hy := h.wlast
  exact Both.iff (by omega) fun hj => ⟨{ h with vp := ⟨h.vp.p, h.vp.c, rfl, h.vp.r⟩ }, (h.W j (by omega)).val⟩

theorem Shift.loadRP (h : Shift a b s s') (q : Bool) (j : Nat) : Both (Pairs a b) (s.loadRP q (j + b)) (s'.loadRP q j) := by
  unfold St.loadRP
  have hx := h.vp.r
  have hy := h.rlast
  refine Both.iff (by omega) fun hj => ?_
  have h1 := h.R j (by omega)
  have h2 : View.Shift a b { s.vp with r := j + b } { s'.vp with r := j } := ⟨h.vp.p, h.vp.c, h.vp.w, rfl⟩
  refine ⟨{ h with vp := ?_ }, h1.val⟩
  cases q
  · exact h2
  · exact h2.join h1.view

theorem Shift.loadWC (h : Shift a b s s') (q : Bool) (j : Nat) : Both (Pairs a b) (s.loadWC q (j + a)) (s'.loadWC q j) := by
  unfold St.loadWC
  have hx := h.vc.w
  have hy := h.wlast
  refine Both.iff (by omega) fun hj => ?_
  have h1 := h.W j (by omega)
  have h2 : View.Shift a b { s.vc with w := j + a } { s'.vc with w := j } := ⟨h.vc.p, h.vc.c, rfl, h.vc.r⟩
  refine ⟨{ h with vc := ?_ }, h1.val⟩
  cases q
  · exact h2
  · exact h2.join h1.view

theorem Shift.loadRC (h : Shift a b s s') (j : Nat) : Both (Pairs a b) (s.loadRC (j + b)) (s'.loadRC j) := by
  unfold St.loadRC
  have hx := h.vc.r
  have hy := h.rlast
  exact Both.iff (by omega) fun hj => ⟨{ h with vc := ⟨h.vc.p, h.vc.c, h.vc.w, rfl⟩ }, (h.R j (by omega)).val⟩

theorem Shift.storeW (h : Shift a b s s') (x : SizeT) (vs : List α) : Shift a b (s.storeW x vs) (s'.storeW x vs) := by
  have hv : View.Shift a b { s.vp with w := s.wlast + 1 } { s'.vp with w := s'.wlast + 1 } := ⟨h.vp.p, h.vp.c, by show s.wlast + 1 = s'.wlast + 1 + a; rw [h.wlast]; omega, h.vp.r⟩
  refine { h with acc := by simp only [St.storeW, h.acc], wlast := by simp only [St.storeW, h.wlast]; omega, W := fun k hk => ?_, vp := hv }
  simp only [St.storeW] at hk ⊢
  by_cases hk' : k = s'.wlast + 1
  · subst hk'
    rw [show s'.wlast + 1 + a = s.wlast + 1 by rw [h.wlast]; omega, upd_self, upd_self]
    exact ⟨rfl, by simp only [h.acc], hv.above⟩
  · rw [upd_ne _ _ _ (by rw [h.wlast]; omega), upd_ne _ _ _ hk']
    exact h.W k (by omega)

theorem Shift.storeR (h : Shift a b s s') (x : SizeT) (n : Nat) : Shift a b (s.storeR x n) (s'.storeR x n) := by
  have hv : View.Shift a b { s.vc with r := s.rlast + 1 } { s'.vc with r := s'.rlast + 1 } := ⟨h.vc.p, h.vc.c, h.vc.w, by show s.rlast + 1 = s'.rlast + 1 + b; rw [h.rlast]; omega⟩
  refine { h with rlast := by simp only [St.storeR, h.rlast]; omega, R := fun k hk => ?_, vc := hv }
  simp only [St.storeR] at hk ⊢
  by_cases hk' : k = s'.rlast + 1
  · subst hk'
    rw [show s'.rlast + 1 + b = s.rlast + 1 by rw [h.rlast]; omega, upd_self, upd_self]
    exact ⟨rfl, by rw [h.rlast, (h.R s'.rlast (Nat.le_refl _)).cnt], hv.above⟩
  · rw [upd_ne _ _ _ (by rw [h.rlast]; omega), upd_ne _ _ _ hk']
    exact h.R k (by omega)

end

namespace Code
open Text

/-- Corresponding resolutions: an exception for an exception. -/
def sameKind (ch ch' : Choice α) : Prop := isOut true ch = isOut true ch'

/-- The resolution in the state with more stores. -/
def up (dg ds : Nat) : Choice α → Choice α
  | .go j => .go (j + dg)
  | .swap j => .swap (j + ds)
  | ch => ch

/-- The access does the same in both states. -/
structure Corr (a b : Nat) (x : LAcc α) : Prop where
  ex : ∃ dg ds, (∀ t s s' l ch, Shift a b s s' → Both (Pairs a b) (x.run t s l (up dg ds ch)) (x.run t s' l ch) ∧ x.ok s l (up dg ds ch) = x.ok s' l ch) ∧
    ∀ t s s' l, Shift a b s s' → (∀ j, j < dg → x.run t s l (.go j) = none) ∧ ∀ j, j < ds → x.run t s l (.swap j) = none

theorem up_kind (dg ds : Nat) (ch : Choice α) : sameKind (up dg ds ch) ch := by cases ch <;> rfl

theorem Corr.tracks {a b : Nat} {x : LAcc α} (h : Corr a b x) : Tracks (Shift a b) sameKind x ∧ Tracks (fun s s' => Shift a b s' s) sameKind x := by
  obtain ⟨dg, ds, h1, h2⟩ := h.ex
  constructor
  · intro t s s' l ch s₁ l₁ f hr hx
    have hch : ∃ ch', ch = up dg ds ch' := by
      cases ch with
      | go j =>
        refine ⟨.go (j - dg), ?_⟩
        have : ¬ j < dg := fun hj => by rw [(h2 t s s' l hr).1 j hj] at hx; cases hx
        simp only [up]; congr 1; omega
      | swap j =>
        refine ⟨.swap (j - ds), ?_⟩
        have : ¬ j < ds := fun hj => by rw [(h2 t s s' l hr).2 j hj] at hx; cases hx
        simp only [up]; congr 1; omega
      | call o => exact ⟨.call o, rfl⟩
      | throw => exact ⟨.throw, rfl⟩
      | sync => exact ⟨.sync, rfl⟩
    obtain ⟨ch', rfl⟩ := hch
    obtain ⟨h3, h4⟩ := h1 t s s' l ch' hr
    rw [hx] at h3
    cases hy : x.run t s' l ch' with
    | none => rw [hy] at h3; exact h3.elim
    | some y =>
      rw [hy] at h3
      obtain ⟨s₁', y2⟩ := y
      obtain ⟨h5, h6⟩ := h3
      cases (show (l₁, f) = y2 from h6)
      exact ⟨ch', s₁', up_kind _ _ _, fun hk => by rw [← h4]; exact hk, hy, h5⟩
  · intro t s' s l ch s₁ l₁ f hr hx
    obtain ⟨h3, h4⟩ := h1 t s s' l ch hr
    rw [hx] at h3
    cases hy : x.run t s l (up dg ds ch) with
    | none => rw [hy] at h3; exact h3.elim
    | some y =>
      rw [hy] at h3
      obtain ⟨s₁', y2⟩ := y
      obtain ⟨h5, h6⟩ := h3
      cases (show y2 = (l₁, f) from h6)
      exact ⟨up dg ds ch, s₁', (up_kind dg ds ch).symm, fun hk => by rw [h4]; exact hk, hy, h5⟩

section
variable {a b : Nat} {cfg : Cfg} {sc q : Bool}

theorem latest_up (sc : Bool) (i j d : Nat) : latest (α := α) sc (i + d) (.go (j + d)) = latest (α := α) sc i (.go j) := by
  simp only [latest]
  rw [show (j + d == i + d) = (j == i) from by simp [Nat.add_right_cancel_iff]]

theorem corr_loadWrite {st : Loc α → SizeT → Loc α} : Corr a b (loadWrite sc q st) := by
  refine ⟨a, 0, fun t s s' l ch h => ?_, fun t s s' l h => ⟨fun j hj => ?_, fun j hj => by simp at hj⟩⟩
  · cases ch <;> try exact ⟨trivial, rfl⟩
    rename_i j
    refine ⟨?_, by simp only [loadWrite, up, h.wlast]; exact latest_up ..⟩
    simp only [loadWrite, up]
    split
    · exact (h.loadWP j).map fun x y hp => ⟨hp.1, by rw [hp.2]⟩
    · exact (h.loadWC q j).map fun x y hp => ⟨hp.1, by rw [hp.2]⟩
  · have h1 := h.vp.w
    have h2 := h.vc.w
    simp only [loadWrite]
    split
    · rw [St.loadWP, if_neg (by omega)]; rfl
    · rw [St.loadWC, if_neg (by omega)]; rfl

theorem corr_loadRead {st : Loc α → SizeT → Loc α} : Corr a b (loadRead sc q st) := by
  refine ⟨b, 0, fun t s s' l ch h => ?_, fun t s s' l h => ⟨fun j hj => ?_, fun j hj => by simp at hj⟩⟩
  · cases ch <;> try exact ⟨trivial, rfl⟩
    rename_i j
    refine ⟨?_, by simp only [loadRead, up, h.rlast]; exact latest_up ..⟩
    simp only [loadRead, up]
    split
    · exact (h.loadRP q j).map fun x y hp => ⟨hp.1, by rw [hp.2]⟩
    · exact (h.loadRC j).map fun x y hp => ⟨hp.1, by rw [hp.2]⟩
  · have h1 := h.vp.r
    have h2 := h.vc.r
    simp only [loadRead]
    split
    · rw [St.loadRP, if_neg (by omega)]; rfl
    · rw [St.loadRC, if_neg (by omega)]; rfl

theorem corr_loadEither : Corr a b (loadEither (α := α) sc) := by
  refine ⟨a, b, fun t s s' l ch h => ?_, fun t s s' l h => ⟨fun j hj => ?_, fun j hj => ?_⟩⟩
  · cases ch <;> try exact ⟨trivial, rfl⟩
    · rename_i j
      refine ⟨?_, by simp only [loadEither, up, h.wlast]; exact latest_up ..⟩
      simp only [loadEither, up]
      split
      · exact (h.loadWP j).map fun x y hp => ⟨hp.1, by rw [hp.2]⟩
      · exact (h.loadWC false j).map fun x y hp => ⟨hp.1, by rw [hp.2]⟩
    · rename_i j
      refine ⟨?_, ?_⟩
      · simp only [loadEither, up]
        split
        · exact (h.loadRP false j).map fun x y hp => ⟨hp.1, by rw [hp.2]⟩
        · exact (h.loadRC j).map fun x y hp => ⟨hp.1, by rw [hp.2]⟩
      · simp only [loadEither, up, h.rlast]
        rw [show (j + b == s'.rlast + b) = (j == s'.rlast) from by simp [Nat.add_right_cancel_iff]]
  · have h1 := h.vp.w
    have h2 := h.vc.w
    simp only [loadEither]
    split
    · rw [St.loadWP, if_neg (by omega)]; rfl
    · rw [St.loadWC, if_neg (by omega)]; rfl
  · have h1 := h.vp.r
    have h2 := h.vc.r
    simp only [loadEither]
    split
    · rw [St.loadRP, if_neg (by omega)]; rfl
    · rw [St.loadRC, if_neg (by omega)]; rfl

/-- Accesses that load no index. -/
theorem Corr.plain {x : LAcc α} (h : ∀ t s s' l ch, Shift a b s s' → Both (Pairs a b) (x.run t s l ch) (x.run t s' l ch) ∧ x.ok s l ch = x.ok s' l ch) : Corr a b x := by
  refine ⟨0, 0, fun t s s' l ch hs => ?_, fun t s s' l _ => ⟨fun j hj => by simp at hj, fun j hj => by simp at hj⟩⟩
  rw [show up 0 0 ch = ch by cases ch <;> rfl]
  exact h t s s' l ch hs

theorem corr_storeWrite {x : Loc α → SizeT} {vs : Loc α → List α} : Corr a b (storeWrite x vs) := by
  refine .plain fun t s s' l ch h => ⟨?_, rfl⟩
  cases ch <;> first | trivial | exact ⟨h.storeW _ _, rfl⟩

theorem corr_storeRead {x : Loc α → SizeT} {n : Loc α → Nat} : Corr a b (storeRead x n) := by
  refine .plain fun t s s' l ch h => ⟨?_, rfl⟩
  cases ch <;> first | trivial | exact ⟨h.storeR _ _, rfl⟩

theorem corr_construct {i : Loc α → Nat} {v : Loc α → Option α} {c : Bool} : Corr a b (construct cfg i v c) := by
  refine .plain fun t s s' l ch h => ⟨?_, rfl⟩
  cases ch <;> try trivial
  · simp only [construct]
    cases hv : v l with
    | none => exact ⟨h, rfl⟩
    | some v =>
      have := h.construct (cfg := cfg) (i l) v
      simp only [Option.bind_some]
      generalize s.construct cfg (i l) v = o at this
      generalize s'.construct cfg (i l) v = o' at this
      cases o <;> cases o' <;> first | exact this.elim | exact ⟨h, rfl⟩ | exact ⟨this, rfl⟩

theorem corr_destroy {i : Loc α → Nat} : Corr a b (destroy cfg i) := by
  refine .plain fun t s s' l ch h => ⟨?_, rfl⟩
  cases ch <;> try trivial
  simp only [destroy]
  have : Both (Shift a b) (if t = 0 then s.destroyP cfg (i l) else s.destroyC cfg (i l)) (if t = 0 then s'.destroyP cfg (i l) else s'.destroyC cfg (i l)) := by
    split
    · exact h.destroyP _
    · exact h.destroyC _
  generalize (if t = 0 then s.destroyP cfg (i l) else s.destroyC cfg (i l)) = o at this
  generalize (if t = 0 then s'.destroyP cfg (i l) else s'.destroyC cfg (i l)) = o' at this
  cases o <;> cases o' <;> first | exact this.elim | exact ⟨h, rfl⟩ | exact ⟨this, rfl⟩

theorem corr_take {i : Loc α → Nat} : Corr a b (take cfg i) := by
  refine .plain fun t s s' l ch h => ⟨?_, rfl⟩
  have := h.readC (cfg := cfg) (i l)
  cases ch <;> try trivial
  all_goals
    simp only [take]
    generalize s.readC cfg (i l) = o at this
    generalize s'.readC cfg (i l) = o' at this
    cases o <;> cases o' <;> try (first | exact this.elim | exact ⟨h, rfl⟩)
    rename_i x y
    obtain ⟨x1, x2⟩ := x
    obtain ⟨y1, y2⟩ := y
    obtain ⟨h1, h2⟩ := this
    cases (show x2 = y2 from h2)
  · exact ⟨{ h1 with out := by show x1.out ++ [x2] = y1.out ++ [x2]; rw [show x1.out = y1.out from h1.out] }, rfl⟩
  · exact ⟨h1, rfl⟩

theorem corr_readFront : Corr a b (readFront (α := α) cfg) := by
  refine .plain fun t s s' l ch h => ⟨?_, rfl⟩
  have := h.readC (cfg := cfg) l.read_index.toNat
  cases ch <;> try trivial
  simp only [readFront]
  generalize s.readC cfg l.read_index.toNat = o at this
  generalize s'.readC cfg l.read_index.toNat = o' at this
  cases o <;> cases o' <;> try (first | exact this.elim | exact ⟨h, rfl⟩)
  rename_i x y
  obtain ⟨x1, x2⟩ := x
  obtain ⟨y1, y2⟩ := y
  obtain ⟨h1, h2⟩ := this
  cases (show x2 = y2 from h2)
  exact ⟨h1, rfl⟩

theorem sectionLoop_all {c : Bool} : (sectionLoop (α := α) cfg c).All (Corr a b) := by
  unfold sectionLoop
  split <;> simp [stdCopyLoop, takeLoop, Stm.All, Stm.skip, corr_take, corr_destroy]

theorem takeMany_all {copy limited : Bool} : (takeMany (α := α) cfg sc copy limited).All (Corr a b) := by
  simp [takeMany, takeTwo, takeOne, takeSection, release, readAvailFn, Stm.All, Stm.skip, sectionLoop_all, corr_loadWrite, corr_loadRead, corr_storeRead]

/-- All accesses of the program. -/
theorem body_all {t : Nat} {o : Op α} {l : Loc α} {x : LStm α} (h : (program α cfg sc).body t o = some (l, x)) : x.All (Corr a b) := by
  simp only [program] at h
  split at h
  · unfold body at h
    split at h <;> simp only [Option.some.injEq, Prod.mk.injEq, reduceCtorEq] at h <;> obtain ⟨rfl, rfl⟩ := h
    all_goals simp [call, push, pushRange, copyTwo, copyOne, uninitializedCopy, copyLoop, undo, undoLoop, publish, nextIndexFn, nextLoop, writeAvailFn,
      readAvailFn, writeAvailable, readAvailable, returnRead, returnWrite, consumeOne, front, frontRef, isEmpty, Stm.All, Stm.skip, takeMany_all, corr_loadWrite,
      corr_loadRead, corr_loadEither, corr_storeWrite, corr_storeRead, corr_construct, corr_destroy, corr_take, corr_readFront]
    split <;> simp [Stm.All, corr_loadWrite, corr_loadRead, corr_readFront]
  · simp at h

end

end Code

end Verif.Spsc
