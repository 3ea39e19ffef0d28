import Verif.Queue.Weak
import Verif.HeapInv

/-!
# Queue under release/acquire memory: invariant of the messages (proof)

`X i` is the node of the `i`-th push (`X 0` the initial dummy), `nu i` the number of the message of its `next`
word that was written when the node was prepared for that push; the link to the next node is message
`nu i + 1`.
-/

namespace Verif.Queue
open Lin

/-- Ghost state: the pushes so far. -/
structure Gh where
  X : Nat → Nat
  nu : Nat → Nat
  K : Nat

/-- Memory with one more message. -/
def msgp (msg : Loc → Nat → Msg Loc) (top : Loc → Nat) (l : Loc) (m : Msg Loc) : Loc → Nat → Msg Loc :=
  upd msg l (upd (msg l) (top l + 1) m)

def topp (top : Loc → Nat) (l : Loc) : Loc → Nat := upd top l (top l + 1)

section
variable {msg : Loc → Nat → Msg Loc} {top : Loc → Nat} {l l' : Loc} {m : Msg Loc} {i : Nat}

theorem msgp_old (h : i ≤ top l') : msgp msg top l m l' i = msg l' i := by
  simp only [msgp, upd_apply]
  split
  · subst_vars; simp only [upd_apply]; split
    · omega
    · rfl
  · rfl

@[simp] theorem msgp_new : msgp msg top l m l (top l + 1) = m := by simp [msgp]

theorem msgp_ne (h : l' ≠ l) : msgp msg top l m l' = msg l' := by simp [msgp, upd_ne _ _ _ h]

@[simp] theorem topp_self : topp top l l = top l + 1 := by simp [topp]

theorem topp_ne (h : l' ≠ l) : topp top l l' = top l' := by simp [topp, upd_ne _ _ _ h]

theorem topp_le : top l' ≤ topp top l l' := by
  simp only [topp, upd_apply]; split
  · subst_vars; omega
  · exact Nat.le_refl _

theorem topp_cases (h : i ≤ topp top l l') : i ≤ top l' ∨ (l' = l ∧ i = top l + 1) := by
  by_cases h' : l' = l
  · subst h'; rw [topp_self] at h; by_cases h2 : i = top l' + 1
    · exact .inr ⟨rfl, h2⟩
    · exact .inl (by omega)
  · rw [topp_ne h'] at h; exact .inl h

end

/-- Extension of memory and ghost state. -/
structure Ext (msg : Loc → Nat → Msg Loc) (top : Loc → Nat) (gh : Gh) (msg' : Loc → Nat → Msg Loc)
    (top' : Loc → Nat) (gh' : Gh) : Prop where
  msg : ∀ l i, i ≤ top l → msg' l i = msg l i
  top : ∀ l, top l ≤ top' l
  K : gh.K ≤ gh'.K
  X : ∀ i ≤ gh.K, gh'.X i = gh.X i
  nu : ∀ i ≤ gh.K, gh'.nu i = gh.nu i

theorem Ext.refl (msg : Loc → Nat → Msg Loc) (top : Loc → Nat) (gh : Gh) : Ext msg top gh msg top gh :=
  ⟨fun _ _ _ => rfl, fun _ => Nat.le_refl _, Nat.le_refl _, fun _ _ => rfl, fun _ _ => rfl⟩

theorem Ext.push {msg : Loc → Nat → Msg Loc} {top : Loc → Nat} {l : Loc} {m : Msg Loc} {gh gh' : Gh}
    (hK : gh.K ≤ gh'.K) (hX : ∀ i ≤ gh.K, gh'.X i = gh.X i) (hn : ∀ i ≤ gh.K, gh'.nu i = gh.nu i) :
    Ext msg top gh (msgp msg top l m) (topp top l) gh' :=
  ⟨fun _ _ h => msgp_old h, fun _ => topp_le, hK, hX, hn⟩

/-- A view knows what the messages it has seen know (except messages of `pool_`, which are read with
`memory_order_consume`). -/
def VG (msg : Loc → Nat → Msg Loc) (top : Loc → Nat) (v : View Loc) : Prop :=
  (∀ l, v.seen l ≤ top l) ∧ ∀ l, l ≠ .pool → ∀ i ≤ v.seen l, (msg l i).view.Le v

section
variable {msg msg' : Loc → Nat → Msg Loc} {top top' : Loc → Nat} {gh gh' : Gh} {v v' : View Loc}

theorem VG.ext (hv : VG msg top v) (he : Ext msg top gh msg' top' gh') : VG msg' top' v :=
  ⟨fun l => Nat.le_trans (hv.1 l) (he.top l), fun l hl i hi => by
    rw [he.msg l i (Nat.le_trans hi (hv.1 l))]; exact hv.2 l hl i hi⟩

theorem VG.tick (hv : VG msg top v) (t : Nat) : VG msg top (v.tick t) :=
  ⟨hv.1, fun l hl i hi => (hv.2 l hl i hi).trans (View.le_tick _ _)⟩

theorem VG.join (hv : VG msg top v) (hv' : VG msg top v') : VG msg top (v.join v') := by
  refine ⟨fun l => ?_, fun l hl i hi => ?_⟩
  · have := hv.1 l; have := hv'.1 l; simp only [View.join]; omega
  · simp only [View.join] at hi
    by_cases h : i ≤ v.seen l
    · exact (hv.2 l hl i h).trans (View.le_join_left _ _)
    · exact (hv'.2 l hl i (by omega)).trans (View.le_join_right _ _)

theorem bump_seen_self (v : View Loc) (l : Loc) (i : Nat) : (v.bump l i).seen l = max (v.seen l) i := by
  simp [View.bump]

theorem bump_seen_ne (v : View Loc) {l l' : Loc} (h : l' ≠ l) (i : Nat) : (v.bump l i).seen l' = v.seen l' := by
  simp [View.bump, upd_ne _ _ _ h]

theorem VG.bump (hv : VG msg top v) {l : Loc} {i : Nat} (hi : l ≠ .pool → i ≤ v.seen l) (ht : i ≤ top l) :
    VG msg top (v.bump l i) := by
  refine ⟨fun l' => ?_, fun l' hl' j hj => ?_⟩
  · have := hv.1 l'
    by_cases h : l' = l
    · subst h; rw [bump_seen_self]; omega
    · rw [bump_seen_ne _ h]; exact this
  · have : j ≤ v.seen l' := by
      by_cases h : l' = l
      · subst h; rw [bump_seen_self] at hj; have := hi hl'; omega
      · rw [bump_seen_ne _ h] at hj; exact hj
    exact (hv.2 l' hl' j this).trans (View.le_bump _ _ _)

/-- The view of the writer of a new message. -/
theorem VG.push (hv : VG msg top v) {l : Loc} (hl : l ≠ .pool → top l ≤ v.seen l) {t : Nat} {x : Snap} :
    VG (msgp msg top l ⟨x, (v.bump l (top l + 1)).tick t⟩) (topp top l) ((v.bump l (top l + 1)).tick t) := by
  refine ⟨fun l' => ?_, fun l' hl' j hj => ?_⟩
  · have := hv.1 l'
    show (v.bump l (top l + 1)).seen l' ≤ _
    by_cases h : l' = l
    · subst h; rw [bump_seen_self, topp_self]; omega
    · rw [bump_seen_ne _ h, topp_ne h]; exact this
  · change j ≤ (v.bump l (top l + 1)).seen l' at hj
    have hle : v.Le ((v.bump l (top l + 1)).tick t) := (View.le_bump _ _ _).trans (View.le_tick _ _)
    by_cases h : l' = l
    · subst h
      rw [bump_seen_self] at hj
      have h1 := hl hl'
      have h2 := hv.1 l'
      by_cases h3 : j = top l' + 1
      · subst h3; rw [msgp_new]; exact .refl _
      · rw [msgp_old (by omega)]; exact (hv.2 l' hl' j (by omega)).trans hle
    · rw [bump_seen_ne _ h] at hj
      rw [msgp_ne h]
      exact (hv.2 l' hl' j hj).trans hle

end

/-- Invariant of the messages of `head_`, `tail_` and the `next` words. -/
structure M1 (M : Nat) (msg : Loc → Nat → Msg Loc) (top : Loc → Nat) (pl : Nat → Nat → Bool) (gh : Gh) : Prop where
  ht : top .head ≤ top .tail
  tK : top .tail ≤ gh.K
  Kt : gh.K ≤ top .tail + 1
  inj : ∀ i j, top .head ≤ i → i < j → j ≤ gh.K → gh.X i ≠ gh.X j
  nu0 : gh.nu 0 = 0
  hval : ∀ k ≤ top .head, (msg .head k).val = ⟨⟨some (gh.X k), k % M⟩, k⟩
  tval : ∀ k ≤ top .tail, (msg .tail k).val = ⟨⟨some (gh.X k), k % M⟩, k⟩
  nul : ∀ i ≤ gh.K, gh.nu i ≤ top (.next (gh.X i)) ∧ (msg (.next (gh.X i)) (gh.nu i)).val.v.ptr = none
  lnk : ∀ i < gh.K, gh.nu i + 1 ≤ top (.next (gh.X i)) ∧
    (msg (.next (gh.X i)) (gh.nu i + 1)).val.v.ptr = some (gh.X (i + 1)) ∧
    (msg (.next (gh.X i)) (gh.nu i)).val.ver < (msg (.next (gh.X i)) (gh.nu i + 1)).val.ver
  lastK : top (.next (gh.X gh.K)) = gh.nu gh.K
  str : ∀ i, top .head ≤ i → i < gh.K → top (.next (gh.X i)) = gh.nu i + 1
  ord : ∀ i' i, i' < i → i ≤ gh.K → gh.X i' = gh.X i → gh.nu i' + 1 < gh.nu i
  tag : ∀ n j, j ≤ top (.next n) → (msg (.next n) j).val.v.tag = (msg (.next n) j).val.ver % M
  mono : ∀ n i j, i ≤ j → j ≤ top (.next n) → (msg (.next n) i).val.ver ≤ (msg (.next n) j).val.ver
  self : ∀ l i, l ≠ .pool → i ≤ top l → i ≤ (msg l i).view.seen l
  hT : ∀ k ≤ top .head, k ≤ (msg .head k).view.seen .tail
  tD : ∀ k j, k ≤ top .tail → j < k → gh.nu j + 1 ≤ (msg .tail k).view.seen (.next (gh.X j))
  nE : ∀ j < gh.K, j ≤ (msg (.next (gh.X j)) (gh.nu j + 1)).view.seen .tail ∧
    gh.nu (j + 1) ≤ (msg (.next (gh.X j)) (gh.nu j + 1)).view.seen (.next (gh.X (j + 1)))
  nF : ∀ i m, i ≤ gh.K → gh.nu i + 1 < m → m ≤ top (.next (gh.X i)) → i < (msg (.next (gh.X i)) m).view.seen .head
  plok : ∀ n j, pl n j = true → j ≤ top (.next n) ∧ ∀ i ≤ gh.K, gh.X i = n → j ≠ gh.nu i ∧ j ≠ gh.nu i + 1

section
variable {M : Nat} {msg : Loc → Nat → Msg Loc} {top : Loc → Nat} {pl : Nat → Nat → Bool} {gh : Gh}
  (h : M1 M msg top pl gh)
include h

section
variable {v : View Loc} (hv : VG msg top v)
include hv

theorem M1.C : v.seen .head ≤ v.seen .tail :=
  Nat.le_trans (h.hT _ (hv.1 .head)) ((hv.2 .head (by simp) _ (Nat.le_refl _)).1 .tail)

theorem M1.D {j : Nat} (hj : j < v.seen .tail) : gh.nu j + 1 ≤ v.seen (.next (gh.X j)) :=
  Nat.le_trans (h.tD _ j (hv.1 .tail) hj) ((hv.2 .tail (by simp) _ (Nat.le_refl _)).1 _)

theorem M1.E {j : Nat} (hj : j ≤ v.seen .tail) : gh.nu j ≤ v.seen (.next (gh.X j)) := by
  cases j with
  | zero => rw [h.nu0]; exact Nat.zero_le _
  | succ j =>
    have h1 := h.D hv (j := j) (by omega)
    have h2 := hv.1 .tail
    have h3 := h.tK
    exact Nat.le_trans (h.nE j (by omega)).2 ((hv.2 _ (by simp) _ h1).1 _)

theorem M1.F {i : Nat} (hi : i ≤ gh.K) (hn : gh.nu i + 1 < v.seen (.next (gh.X i))) : i < v.seen .head :=
  Nat.lt_of_lt_of_le (h.nF i _ hi hn (hv.1 _)) ((hv.2 _ (by simp) _ (Nat.le_refl _)).1 .head)

end

/-- Messages of other objects do not matter. -/
theorem M1.pool {m : Msg Loc} : M1 M (msgp msg top .pool m) (topp top .pool) pl gh := by
  have h1 : ∀ l, l ≠ .pool → msgp msg top .pool m l = msg l := fun l hl => msgp_ne hl
  have h2 : ∀ l, l ≠ .pool → topp top .pool l = top l := fun l hl => topp_ne hl
  have hh := h1 .head (by simp)
  have hhT := h2 .head (by simp)
  have ht := h1 .tail (by simp)
  have htT := h2 .tail (by simp)
  have hn := fun n => h1 (.next n) (by simp)
  have hnT := fun n => h2 (.next n) (by simp)
  constructor <;> try simp only [hh, hhT, ht, htT, hn, hnT]
  case self => intro l i hl hi; rw [h2 l hl] at hi; rw [h1 l hl]; exact h.self l i hl hi
  all_goals first | exact h.ht | exact h.tK | exact h.Kt | exact h.inj | exact h.nu0 | exact h.hval | exact h.tval | exact h.nul | exact h.lnk
                  | exact h.lastK | exact h.str | exact h.ord | exact h.tag | exact h.mono | exact h.hT | exact h.tD | exact h.nE
                  | exact h.nF | exact h.plok

/-- A successful swing of `tail_`. -/
theorem M1.swing {V : View Loc} (hK : top .tail < gh.K) (hold : (msg .tail (top .tail)).view.Le V)
    (hself : top .tail + 1 ≤ V.seen .tail) (hD : gh.nu (top .tail) + 1 ≤ V.seen (.next (gh.X (top .tail)))) :
    M1 M (msgp msg top .tail ⟨⟨⟨some (gh.X (top .tail + 1)), (top .tail + 1) % M⟩, top .tail + 1⟩, V⟩) (topp top .tail) pl gh := by
  have hh : msgp msg top .tail ⟨⟨⟨some (gh.X (top .tail + 1)), (top .tail + 1) % M⟩, top .tail + 1⟩, V⟩ .head = msg .head := msgp_ne (by simp)
  have hhT : topp top .tail .head = top .head := topp_ne (by simp)
  have hn := fun n => msgp_ne (msg := msg) (top := top) (l := .tail) (l' := .next n) (m := ⟨⟨⟨some (gh.X (top .tail + 1)), (top .tail + 1) % M⟩, top .tail + 1⟩, V⟩) (by simp)
  have hnT := fun n => topp_ne (top := top) (l := .tail) (l' := .next n) (by simp)
  have h1 := h.ht
  have h2 := h.tK
  have h3 := h.Kt
  constructor <;> try simp only [hh, hhT, hn, hnT]
  case ht => simp only [topp_self]; omega
  case tK => simp only [topp_self]; omega
  case Kt => simp only [topp_self]; omega
  case tval =>
    intro k hk
    rcases topp_cases hk with hk | ⟨_, rfl⟩
    · rw [msgp_old hk]; exact h.tval k hk
    · rw [msgp_new]
  case self =>
    intro l i hl hi
    rcases topp_cases hi with hi | ⟨rfl, rfl⟩
    · rw [msgp_old hi]; exact h.self l i hl hi
    · rw [msgp_new]; exact hself
  case tD =>
    intro k j hk hj
    rcases topp_cases hk with hk | ⟨_, rfl⟩
    · rw [msgp_old hk]; exact h.tD k j hk hj
    · rw [msgp_new]
      by_cases hj' : j = top .tail
      · subst hj'; exact hD
      · exact Nat.le_trans (h.tD _ j (Nat.le_refl _) (by omega)) (hold.1 _)
  all_goals first | exact h.inj | exact h.nu0 | exact h.hval | exact h.nul | exact h.lnk
                  | exact h.lastK | exact h.str | exact h.ord | exact h.tag | exact h.mono | exact h.hT | exact h.nE
                  | exact h.nF | exact h.plok

/-- A successful `pop`. -/
theorem M1.pop {V : View Loc} (hself : top .head + 1 ≤ V.seen .head) (hT : top .head + 1 ≤ V.seen .tail)
    (hlt : top .head < top .tail) :
    M1 M (msgp msg top .head ⟨⟨⟨some (gh.X (top .head + 1)), (top .head + 1) % M⟩, top .head + 1⟩, V⟩) (topp top .head) pl gh := by
  have hh : msgp msg top .head ⟨⟨⟨some (gh.X (top .head + 1)), (top .head + 1) % M⟩, top .head + 1⟩, V⟩ .tail = msg .tail := msgp_ne (by simp)
  have hhT : topp top .head .tail = top .tail := topp_ne (by simp)
  have hn := fun n => msgp_ne (msg := msg) (top := top) (l := .head) (l' := .next n) (m := ⟨⟨⟨some (gh.X (top .head + 1)), (top .head + 1) % M⟩, top .head + 1⟩, V⟩) (by simp)
  have hnT := fun n => topp_ne (top := top) (l := .head) (l' := .next n) (by simp)
  have h1 := h.ht
  have h2 := h.tK
  have h3 := h.Kt
  constructor <;> try simp only [hh, hhT, hn, hnT]
  case ht => simp only [topp_self]; omega
  case inj => intro i j hi; simp only [topp_self] at hi; exact h.inj i j (by omega)
  case str => intro i hi; simp only [topp_self] at hi; exact h.str i (by omega)
  case hval =>
    intro k hk
    rcases topp_cases hk with hk | ⟨_, rfl⟩
    · rw [msgp_old hk]; exact h.hval k hk
    · rw [msgp_new]
  case self =>
    intro l i hl hi
    rcases topp_cases hi with hi | ⟨rfl, rfl⟩
    · rw [msgp_old hi]; exact h.self l i hl hi
    · rw [msgp_new]; exact hself
  case hT =>
    intro k hk
    rcases topp_cases hk with hk | ⟨_, rfl⟩
    · rw [msgp_old hk]; exact h.hT k hk
    · rw [msgp_new]; exact hT
  all_goals first | exact h.tK | exact h.Kt | exact h.nu0 | exact h.tval | exact h.nul | exact h.lnk
                  | exact h.lastK | exact h.ord | exact h.tag | exact h.mono | exact h.tD | exact h.nE
                  | exact h.nF | exact h.plok

/-- A store to the `next` word of a node that is not in the queue. -/
theorem M1.store {n : Nat} {V : View Loc} {x : Snap} {b : Bool} (hX : ∀ i ≤ gh.K, gh.X i = n → i < V.seen .head ∧ i < top .head)
    (hself : top (.next n) + 1 ≤ V.seen (.next n)) (htag : x.v.tag = x.ver % M)
    (hver : (msg (.next n) (top (.next n))).val.ver ≤ x.ver) :
    M1 M (msgp msg top (.next n) ⟨x, V⟩) (topp top (.next n)) (upd pl n (upd (pl n) (top (.next n) + 1) b)) gh := by
  have hh : msgp msg top (.next n) ⟨x, V⟩ .head = msg .head := msgp_ne (by simp)
  have hhT : topp top (.next n) .head = top .head := topp_ne (by simp)
  have ht : msgp msg top (.next n) ⟨x, V⟩ .tail = msg .tail := msgp_ne (by simp)
  have htT : topp top (.next n) .tail = top .tail := topp_ne (by simp)
  have h1 := h.ht
  have h2 := h.tK
  have hne : ∀ i, top .head ≤ i → i ≤ gh.K → Loc.next (gh.X i) ≠ .next n := by
    intro i hi hi' he
    have := hX i hi' (by simpa using he)
    omega
  constructor <;> try simp only [hh, hhT, ht, htT]
  case nul => intro i hi; obtain ⟨h3, h4⟩ := h.nul i hi; exact ⟨Nat.le_trans h3 topp_le, by rw [msgp_old h3]; exact h4⟩
  case lnk =>
    intro i hi
    obtain ⟨h3, h4, h5⟩ := h.lnk i hi
    exact ⟨Nat.le_trans h3 topp_le, by rw [msgp_old h3]; exact h4, by rw [msgp_old h3, msgp_old (by omega)]; exact h5⟩
  case lastK => rw [topp_ne (hne _ (by omega) (Nat.le_refl _))]; exact h.lastK
  case str => intro i hi hi'; rw [topp_ne (hne _ hi (by omega))]; exact h.str i hi hi'
  case tag =>
    intro n' j hj
    rcases topp_cases hj with hj | ⟨he, rfl⟩
    · rw [msgp_old hj]; exact h.tag n' j hj
    · rw [he, msgp_new]; exact htag
  case mono =>
    intro n' i j hij hj
    rcases topp_cases hj with hj | ⟨he, rfl⟩
    · rw [msgp_old hj, msgp_old (by omega)]; exact h.mono n' i j hij hj
    · cases he
      rw [msgp_new]
      by_cases hi : i = top (.next n) + 1
      · subst hi; rw [msgp_new]; exact Nat.le_refl _
      · rw [msgp_old (by omega)]; exact Nat.le_trans (h.mono n i _ (by omega) (Nat.le_refl _)) hver
  case self =>
    intro l i hl hi
    rcases topp_cases hi with hi | ⟨rfl, rfl⟩
    · rw [msgp_old hi]; exact h.self l i hl hi
    · rw [msgp_new]; exact hself
  case nE => intro j hj; rw [msgp_old (h.lnk j hj).1]; exact h.nE j hj
  case nF =>
    intro i m hi hm hm'
    rcases topp_cases hm' with hm' | ⟨he, rfl⟩
    · rw [msgp_old hm']; exact h.nF i m hi hm hm'
    · rw [he, msgp_new]; exact (hX i hi (by simpa using he)).1
  case plok =>
    intro n' j hj
    have key : pl n' j = true ∨ (n' = n ∧ j = top (.next n) + 1) := by
      simp only [upd_apply] at hj
      split at hj
      · subst_vars
        simp only [upd_apply] at hj
        split at hj
        · exact .inr ⟨rfl, by assumption⟩
        · exact .inl hj
      · exact .inl hj
    rcases key with hj | ⟨rfl, rfl⟩
    · obtain ⟨h3, h4⟩ := h.plok n' j hj; exact ⟨Nat.le_trans h3 topp_le, h4⟩
    · refine ⟨by simp, fun i hi he => ?_⟩
      have h3 := (h.lnk i (by have := hX i hi he; omega)).1
      rw [he] at h3
      omega
  all_goals first | exact h.ht | exact h.tK | exact h.Kt | exact h.inj | exact h.nu0 | exact h.hval | exact h.tval | exact h.ord | exact h.hT | exact h.tD

/-- Appending node `n`. -/
theorem M1.link {n : Nat} {V : View Loc} {g : Nat} (hK : top .tail = gh.K)
    (hn : ∀ i, top .head ≤ i → i ≤ gh.K → gh.X i ≠ n) (hnull : (msg (.next n) (top (.next n))).val.v.ptr = none)
    (hord : ∀ i ≤ gh.K, gh.X i = n → gh.nu i + 1 < top (.next n)) (hpl : pl n (top (.next n)) = false)
    (htag : g % M = ((msg (.next (gh.X gh.K)) (gh.nu gh.K)).val.ver + 1) % M)
    (hold : (msg (.next (gh.X gh.K)) (gh.nu gh.K)).view.Le V) (hself : gh.nu gh.K + 1 ≤ V.seen (.next (gh.X gh.K)))
    (hT : gh.K ≤ V.seen .tail) (hN : top (.next n) ≤ V.seen (.next n)) :
    M1 M (msgp msg top (.next (gh.X gh.K)) ⟨⟨⟨some n, g % M⟩, (msg (.next (gh.X gh.K)) (gh.nu gh.K)).val.ver + 1⟩, V⟩)
      (topp top (.next (gh.X gh.K))) pl ⟨upd gh.X (gh.K + 1) n, upd gh.nu (gh.K + 1) (top (.next n)), gh.K + 1⟩ := by
  have hlast := h.lastK
  have h1 := h.ht
  have h2 := h.tK
  have h3 := h.Kt
  have hX : ∀ i, i ≤ gh.K → upd gh.X (gh.K + 1) n i = gh.X i := fun i hi => upd_ne _ _ _ (by omega)
  have hnu : ∀ i, i ≤ gh.K → upd gh.nu (gh.K + 1) (top (.next n)) i = gh.nu i := fun i hi => upd_ne _ _ _ (by omega)
  have hnx : Loc.next n ≠ .next (gh.X gh.K) := by
    intro he; exact hn gh.K (by omega) (Nat.le_refl _) (by simpa using he.symm)
  generalize hm : (⟨⟨⟨some n, g % M⟩, (msg (.next (gh.X gh.K)) (gh.nu gh.K)).val.ver + 1⟩, V⟩ : Msg Loc) = m
  have hnew : msgp msg top (.next (gh.X gh.K)) m (.next (gh.X gh.K)) (gh.nu gh.K + 1) = m := by
    rw [← hlast, msgp_new]
  have hh : msgp msg top (.next (gh.X gh.K)) m .head = msg .head := msgp_ne (by simp)
  have hhT : topp top (.next (gh.X gh.K)) .head = top .head := topp_ne (by simp)
  have ht : msgp msg top (.next (gh.X gh.K)) m .tail = msg .tail := msgp_ne (by simp)
  have htT : topp top (.next (gh.X gh.K)) .tail = top .tail := topp_ne (by simp)
  have htx : topp top (.next (gh.X gh.K)) (.next (gh.X gh.K)) = gh.nu gh.K + 1 := by rw [topp_self, hlast]
  constructor <;> try simp only [hh, hhT, ht, htT]
  case ht => exact h.ht
  case tK => omega
  case Kt => omega
  case inj =>
    intro i j hi hij hj
    rw [hX i (by omega)]
    by_cases hj' : j = gh.K + 1
    · subst hj'; rw [upd_self]; exact hn i hi (by omega)
    · rw [hX j (by omega)]; exact h.inj i j hi hij (by omega)
  case nu0 => rw [hnu 0 (Nat.zero_le _)]; exact h.nu0
  case hval => intro k hk; rw [hX k (by omega)]; exact h.hval k hk
  case tval => intro k hk; rw [hX k (by omega)]; exact h.tval k hk
  case nul =>
    intro i hi
    by_cases hi' : i = gh.K + 1
    · subst hi'
      simp only [upd_self]
      rw [topp_ne hnx, msgp_ne hnx]
      exact ⟨Nat.le_refl _, hnull⟩
    · rw [hX i (by omega), hnu i (by omega)]
      obtain ⟨h4, h5⟩ := h.nul i (by omega)
      exact ⟨Nat.le_trans h4 topp_le, by rw [msgp_old h4]; exact h5⟩
  case lnk =>
    intro i hi
    rw [hX i (by omega), hnu i (by omega)]
    by_cases hi' : i = gh.K
    · subst hi'
      simp only [upd_self]
      rw [htx, hnew, msgp_old (h.nul gh.K (Nat.le_refl _)).1, ← hm]
      exact ⟨Nat.le_refl _, rfl, Nat.lt_succ_self _⟩
    · rw [hX (i + 1) (by omega)]
      obtain ⟨h4, h5, h6⟩ := h.lnk i (by omega)
      exact ⟨Nat.le_trans h4 topp_le, by rw [msgp_old h4]; exact h5, by rw [msgp_old h4, msgp_old (by omega)]; exact h6⟩
  case lastK => simp only [upd_self]; rw [topp_ne hnx]
  case str =>
    intro i hi hi'
    rw [hX i (by omega), hnu i (by omega)]
    by_cases hi'' : i = gh.K
    · subst hi''; exact htx
    · rw [topp_ne (by have := h.inj i gh.K hi (by omega) (Nat.le_refl _); simpa using this)]
      exact h.str i hi (by omega)
  case ord =>
    intro i' i hi hiK he
    rw [hX i' (by omega), hnu i' (by omega)] at *
    by_cases hi' : i = gh.K + 1
    · subst hi'; simp only [upd_self] at he ⊢; exact hord i' (by omega) he
    · rw [hX i (by omega)] at he; rw [hnu i (by omega)]; exact h.ord i' i hi (by omega) he
  case tag =>
    intro n' j hj
    rcases topp_cases hj with hj | ⟨he, rfl⟩
    · rw [msgp_old hj]; exact h.tag n' j hj
    · rw [he, msgp_new, ← hm]; exact htag
  case mono =>
    intro n' i j hij hj
    rcases topp_cases hj with hj | ⟨he, rfl⟩
    · rw [msgp_old hj, msgp_old (by omega)]; exact h.mono n' i j hij hj
    · cases he
      rw [msgp_new]
      by_cases hi : i = top (.next (gh.X gh.K)) + 1
      · subst hi; rw [msgp_new]; exact Nat.le_refl _
      · rw [msgp_old (by omega), ← hm]
        have := h.mono (gh.X gh.K) i (gh.nu gh.K) (by omega) (by omega)
        exact Nat.le_succ_of_le this
  case self =>
    intro l i hl hi
    rcases topp_cases hi with hi | ⟨rfl, rfl⟩
    · rw [msgp_old hi]; exact h.self l i hl hi
    · rw [msgp_new, ← hm, hlast]; exact hself
  case hT => exact h.hT
  case tD => intro k j hk hj; rw [hX j (by omega), hnu j (by omega)]; exact h.tD k j hk hj
  case nE =>
    intro j hj
    rw [hX j (by omega), hnu j (by omega)]
    by_cases hj' : j = gh.K
    · subst hj'; simp only [upd_self]; rw [hnew, ← hm]; exact ⟨hT, hN⟩
    · rw [hX (j + 1) (by omega), hnu (j + 1) (by omega), msgp_old (h.lnk j (by omega)).1]; exact h.nE j (by omega)
  case nF =>
    intro i m' hi hm1 hm2
    by_cases hi' : i = gh.K + 1
    · subst hi'
      simp only [upd_self] at hm1 hm2
      rw [topp_ne hnx] at hm2
      omega
    · rw [hX i (by omega)] at hm2 ⊢; rw [hnu i (by omega)] at hm1
      rcases topp_cases hm2 with hm2 | ⟨he, rfl⟩
      · rw [msgp_old hm2]; exact h.nF i m' (by omega) hm1 hm2
      · rw [he, msgp_new, ← hm]
        have he' : gh.X i = gh.X gh.K := by simpa using he
        have hiK : i < gh.K := by
          rcases Nat.lt_or_ge i gh.K with h4 | h4
          · exact h4
          · have : i = gh.K := by omega
            subst this; omega
        have h5 := h.ord i gh.K hiK (Nat.le_refl _) he'
        have h6 := h.nF i (gh.nu gh.K) (by omega) h5 (by rw [he', hlast]; exact Nat.le_refl _)
        rw [he'] at h6
        exact Nat.lt_of_lt_of_le h6 (hold.1 _)
  case plok =>
    intro n' j hj
    obtain ⟨h4, h5⟩ := h.plok n' j hj
    refine ⟨Nat.le_trans h4 topp_le, fun i hi he => ?_⟩
    by_cases hi' : i = gh.K + 1
    · subst hi'
      simp only [upd_self] at he ⊢
      subst he
      refine ⟨fun he' => ?_, by omega⟩
      rw [he', hpl] at hj; cases hj
    · rw [hX i (by omega)] at he; rw [hnu i (by omega)]; exact h5 i (by omega) he

end
end Verif.Queue
