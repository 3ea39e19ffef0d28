import Verif.HeapInv
import Verif.Queue.Model

/-!
# Queue: inductive invariant (proof)
-/

namespace Verif
open Lin

section tags
variable {α Op : Type}

/-- Tags of link words agree with their versions, and versions of existing nodes are untouched. -/
def TagsOk (cfg : Cfg) (h : Heap α) : Prop := ∀ n, (h.next n).tag = h.nver n % cfg.M

theorem aStep_tags {cfg : Cfg} {b : Bool} {h h' : Heap α} {a : APC} {ch : Choice Op} {r}
    (ht : TagsOk cfg h) (hs : aStep cfg b h a ch = some (h', r)) :
    TagsOk cfg h' ∧ ∀ n < h.nalloc, h'.nver n = h.nver n := by
  have hm : TagsOk cfg h.malloc ∧ ∀ n < h.nalloc, h.malloc.nver n = h.nver n := by
    refine ⟨fun n => ?_, fun n hn => ?_⟩
    · have := ht n
      simp only [Heap.malloc, upd_apply]; split <;> simp_all
    · simp only [Heap.malloc]; rw [upd_ne]; omega
  cases a with
  | load => cases ch <;> simp [aStep] at hs; obtain ⟨rfl, _⟩ := hs; exact ⟨ht, fun _ _ => rfl⟩
  | test o =>
    simp only [aStep] at hs
    split at hs
    · split at hs
      · split at hs <;> simp at hs; obtain ⟨rfl, _⟩ := hs; exact ⟨ht, fun _ _ => rfl⟩
      · split at hs <;> simp at hs <;> obtain ⟨rfl, _⟩ := hs
        · exact hm
        · exact ⟨ht, fun _ _ => rfl⟩
    · split at hs
      · simp at hs; obtain ⟨rfl, _⟩ := hs; exact ⟨ht, fun _ _ => rfl⟩
      · split at hs <;> simp at hs; obtain ⟨rfl, _⟩ := hs; exact ⟨ht, fun _ _ => rfl⟩
      · simp at hs
  | cas o nx =>
    cases ch <;> simp [aStep] at hs
    · split at hs
      · split at hs <;> simp at hs; obtain ⟨rfl, _⟩ := hs; exact ⟨ht, fun _ _ => rfl⟩
      · simp at hs; obtain ⟨rfl, _⟩ := hs; exact ⟨ht, fun _ _ => rfl⟩
    · obtain ⟨rfl, _⟩ := hs; exact ⟨ht, fun _ _ => rfl⟩

theorem TagsOk.setNextPtr {cfg : Cfg} {h : Heap α} (ht : TagsOk cfg h) (n : Nat) (p : Option Nat) :
    TagsOk cfg (h.setNextPtr n p) := by
  intro m
  have h1 := ht m
  have h2 := ht n
  simp only [Heap.setNextPtr, upd_apply]; split <;> simp_all

theorem dStep_tags {cfg : Cfg} {h h' : Heap α} {n : Nat} {d : DPC} {ch : Choice Op} {r}
    (ht : TagsOk cfg h) (hs : dStep h n d ch = some (h', r)) :
    TagsOk cfg h' ∧ ∀ m < h.nalloc, h'.nver m = h.nver m := by
  cases d <;> cases ch <;> simp [dStep] at hs <;> (try split at hs) <;> (try simp at hs) <;>
    obtain ⟨rfl, _⟩ := hs
  · exact ⟨ht, fun _ _ => rfl⟩
  · exact ⟨ht.setNextPtr _ _, fun _ _ => rfl⟩
  · exact ⟨ht, fun _ _ => rfl⟩
  · exact ⟨ht, fun _ _ => rfl⟩
  · exact ⟨ht, fun _ _ => rfl⟩

end tags

namespace Queue

variable {α : Type}

/-- Ghost state: owners, freelist, the chain from the dummy to the last node, nodes held per thread. -/
structure G where
  own : Nat → Owner
  F : List Nat
  L : List Nat
  held : Nat → List Nat

/-- Shared part of the invariant; `σ` is the abstract queue. -/
structure SI (cfg : Cfg) (s : St α) (g : G) (σ : List α) : Prop where
  heap : HInv cfg s.heap g.own g.F g.held
  chain : Chain s.heap.next s.head.ptr g.L
  nodup : g.L.Nodup
  mem : ∀ n, g.own n = .str ↔ n ∈ g.L
  htag : s.head.tag = s.headVer % cfg.M
  ttag : s.tail.tag = s.tailVer % cfg.M
  ntag : TagsOk cfg s.heap
  data : g.L.tail.map s.heap.data = σ.map some
  tl : ∃ A x, s.tail.ptr = some x ∧ (g.L = A ++ [x] ∨ ∃ y, g.L = A ++ [x, y])

/-- A snapshot of `head_` pointing to `x`. -/
def HS (cfg : Cfg) (s : St α) (H : Snap) (x : Nat) : Prop :=
  H.ver ≤ s.headVer ∧ H.v.tag = H.ver % cfg.M ∧ H.v.ptr = some x ∧ x < s.heap.nalloc ∧
    (H.ver = s.headVer → s.head = H.v)

/-- A snapshot of `tail_` pointing to `x`. -/
def TS (cfg : Cfg) (s : St α) (T : Snap) (x : Nat) : Prop :=
  T.ver ≤ s.tailVer ∧ T.v.tag = T.ver % cfg.M ∧ T.v.ptr = some x ∧ x < s.heap.nalloc ∧
    (T.ver = s.tailVer → s.tail = T.v)

def isPend (st : Status (Op α) (Ret α)) (o : Op α) : Prop := ∃ P, st = .pend o P
def isDone (st : Status (Op α) (Ret α)) (r : Ret α) : Prop := ∃ o, st = .done o r

/-- A prepared node. -/
def PN (s : St α) (l : List Nat) (st : Status (Op α) (Ret α)) (n : Nat) : Prop :=
  ∃ b v, l = [n] ∧ isPend st (.push b v) ∧ s.heap.data n = some v ∧ (s.heap.next n).ptr = none

/-- Local invariant of a thread with held nodes `l` and canonical status `st`. -/
def Local (cfg : Cfg) (s : St α) (F L : List Nat) (l : List Nat) (st : Status (Op α) (Ret α)) :
    PC α → Prop
  | .idle => l = [] ∧ st = .idle
  | .alloc b v a => l = [] ∧ isPend st (.push b v) ∧ ALocal cfg s.heap F a
  | .constr b v n => l = [n] ∧ isPend st (.push b v) ∧ s.heap.data n = none
  | .nload b v n => l = [n] ∧ isPend st (.push b v) ∧ s.heap.data n = some v
  | .nstore b v n o => l = [n] ∧ isPend st (.push b v) ∧ s.heap.data n = some v ∧ s.heap.next n = o
  | .pTail n => PN s l st n
  | .pNext n T => PN s l st n ∧ ∃ x, TS cfg s T x
  | .pCheck n T N => PN s l st n ∧ ∃ x, TS cfg s T x ∧ N.ver ≤ s.heap.nver x ∧
      (T.ver = s.tailVer → N.v.tag = N.ver % cfg.M ∧ (s.heap.nver x = N.ver → s.heap.next x = N.v) ∧
        ∀ y, N.v.ptr = some y → (s.heap.next x).ptr = some y)
  | .pCas n T N => PN s l st n ∧ ∃ x, TS cfg s T x ∧ N.ver ≤ s.heap.nver x ∧ N.v = ⟨none, N.ver % cfg.M⟩ ∧
      (s.heap.nver x = N.ver → L.getLast? = some x ∧ s.tailVer = T.ver)
  | .swing k T y => (∃ x, TS cfg s T x ∧ (T.ver = s.tailVer → (s.heap.next x).ptr = some y)) ∧
      match k with
      | .retryPush n => PN s l st n
      | .donePush => l = [] ∧ isDone st (.pushed true)
      | .retryPop => l = [] ∧ isPend st .pop
  | .cHead => l = [] ∧ isPend st .pop
  | .cTail H => l = [] ∧ isPend st .pop ∧ ∃ x, HS cfg s H x
  | .cNext H T => l = [] ∧ isPend st .pop ∧ ∃ x z, HS cfg s H x ∧ TS cfg s T z ∧
      (H.ver = s.headVer → z ≠ x → s.tail.ptr ≠ some x)
  | .cCheck H T N => l = [] ∧ ∃ P, st = .pend .pop P ∧ ∃ x z, HS cfg s H x ∧ TS cfg s T z ∧
      (H.ver = s.headVer → z ≠ x → s.tail.ptr ≠ some x) ∧
      (H.ver = s.headVer → N.v.ptr = none → P (.popped none)) ∧
      (H.ver = s.headVer → ∀ y, N.v.ptr = some y → (s.heap.next x).ptr = some y) ∧
      (T.ver = s.tailVer → z = x → ∀ y, N.v.ptr = some y → (s.heap.next x).ptr = some y)
  | .cData H y => l = [] ∧ isPend st .pop ∧ y < s.heap.nalloc ∧ ∃ x, HS cfg s H x ∧
      (H.ver = s.headVer → s.tail.ptr ≠ some x ∧ (s.heap.next x).ptr = some y)
  | .cCas H y v => l = [] ∧ isPend st .pop ∧ ∃ x, HS cfg s H x ∧
      (H.ver = s.headVer → s.tail.ptr ≠ some x ∧ (s.heap.next x).ptr = some y ∧ s.heap.data y = some v)
  | .cDestroy n v => l = [n] ∧ isDone st (.popped (some v))
  | .free k n d => l = [n] ∧ s.heap.data n = none ∧ DLocal s.heap n d ∧
      match k with
      | .pop v => isDone st (.popped (some v))
      | .rsv _ => ∃ j, isPend st (.reserve j)
  | .eHead => l = [] ∧ isPend st .empty
  | .eTail _ => l = [] ∧ isPend st .empty
  | .eHead2 _ => l = [] ∧ isPend st .empty
  | .rsv _ => l = [] ∧ ∃ j, isPend st (.reserve j)
  | .ret r => l = [] ∧ (isDone st r ∨ ∃ o P, st = .pend o P ∧ P r)
  | .err => False

/-! ### Stability under steps of other threads -/

/-- What a thread with held nodes `l` can rely on when another thread makes a step. -/
structure Rely (l : List Nat) (s : St α) (F L : List Nat) (s' : St α) (F' L' : List Nat) : Prop where
  next : ∀ n ∈ l, s'.heap.next n = s.heap.next n
  data : ∀ n ∈ l, s'.heap.data n = s.heap.data n
  nalloc : s.heap.nalloc ≤ s'.heap.nalloc
  nv : ∀ n < s.heap.nalloc, s.heap.nver n ≤ s'.heap.nver n
  pver : s.heap.poolVer ≤ s'.heap.poolVer
  pF : s'.heap.poolVer = s.heap.poolVer → ∀ n ∈ F, n ∈ F' ∧ (s'.heap.next n).ptr = (s.heap.next n).ptr
  hver : s.headVer ≤ s'.headVer
  tver : s.tailVer ≤ s'.tailVer
  hd : s'.headVer = s.headVer → s'.head = s.head
  tl : s'.tailVer = s.tailVer → s'.tail = s.tail
  fwd : s'.headVer = s.headVer → s'.tail.ptr = s.head.ptr → s.tail.ptr = s.head.ptr
  last : ∀ x, L.getLast? = some x → s.tail.ptr = some x → s'.heap.nver x = s.heap.nver x →
    L'.getLast? = some x ∧ s'.tailVer = s.tailVer
  tnx : s'.tailVer = s.tailVer → ∀ x, s.tail.ptr = some x →
    (s'.heap.next x = s.heap.next x ∧ s'.heap.nver x = s.heap.nver x) ∨
    ((s.heap.next x).ptr = none ∧ s'.heap.nver x = s.heap.nver x + 1)
  hnx : s'.headVer = s.headVer → ∀ x y, s.head.ptr = some x → (s.heap.next x).ptr = some y →
    s'.heap.next x = s.heap.next x ∧ s'.heap.data y = s.heap.data y

section
variable {cfg : Cfg} {l : List Nat} {s s' : St α} {F L F' L' : List Nat} (hr : Rely l s F L s' F' L')
include hr

theorem HS.mono {H x} (h : HS cfg s H x) : HS cfg s' H x := by
  obtain ⟨h1, h2, h3, h4, h5⟩ := h
  have := hr.hver
  have := hr.nalloc
  exact ⟨by omega, h2, h3, by omega, fun he => by rw [hr.hd (by omega)]; exact h5 (by omega)⟩

theorem TS.mono {T x} (h : TS cfg s T x) : TS cfg s' T x := by
  obtain ⟨h1, h2, h3, h4, h5⟩ := h
  have := hr.tver
  have := hr.nalloc
  exact ⟨by omega, h2, h3, by omega, fun he => by rw [hr.tl (by omega)]; exact h5 (by omega)⟩

/-- Facts conditional on the head being unchanged. -/
theorem HS.back {H x} (h : HS cfg s H x) (he : H.ver = s'.headVer) :
    H.ver = s.headVer ∧ s'.headVer = s.headVer ∧ s.head.ptr = some x := by
  have := hr.hver
  have := h.1
  have h1 : H.ver = s.headVer := by omega
  exact ⟨h1, by omega, by rw [h.2.2.2.2 h1]; exact h.2.2.1⟩

theorem TS.back {T x} (h : TS cfg s T x) (he : T.ver = s'.tailVer) :
    T.ver = s.tailVer ∧ s'.tailVer = s.tailVer ∧ s.tail.ptr = some x := by
  have := hr.tver
  have := h.1
  have h1 : T.ver = s.tailVer := by omega
  exact ⟨h1, by omega, by rw [h.2.2.2.2 h1]; exact h.2.2.1⟩

theorem PN.stable {st : Status (Op α) (Ret α)} {n} (h : PN s l st n) : PN s' l st n := by
  obtain ⟨b, v, rfl, h2, h3, h4⟩ := h
  exact ⟨b, v, rfl, h2, by rw [hr.data n (by simp)]; exact h3, by rw [hr.next n (by simp)]; exact h4⟩

theorem TS.next_stable {T x y} (h : TS cfg s T x) (hn : T.ver = s.tailVer → (s.heap.next x).ptr = some y) :
    T.ver = s'.tailVer → (s'.heap.next x).ptr = some y := by
  intro he
  obtain ⟨h1, h2, h3⟩ := h.back hr he
  rcases hr.tnx h2 x h3 with ⟨h4, _⟩ | ⟨h4, _⟩
  · rw [h4]; exact hn h1
  · rw [hn h1] at h4; simp at h4

theorem HS.next_stable {H x y} (h : HS cfg s H x) (hn : H.ver = s.headVer → (s.heap.next x).ptr = some y) :
    H.ver = s'.headVer → (s'.heap.next x).ptr = some y := by
  intro he
  obtain ⟨h1, h2, h3⟩ := h.back hr he
  rw [(hr.hnx h2 x y h3 (hn h1)).1]; exact hn h1

theorem HS.fwd_stable {H x} (h : HS cfg s H x) (hn : H.ver = s.headVer → s.tail.ptr ≠ some x) :
    H.ver = s'.headVer → s'.tail.ptr ≠ some x := by
  intro he
  obtain ⟨h1, h2, h3⟩ := h.back hr he
  intro h4
  exact hn h1 (by rw [hr.fwd h2 (by rw [h4, h3]), h3])

theorem Local.stable {st} {p : PC α} (hl : Local cfg s F L l st p) : Local cfg s' F' L' l st p := by
  cases p with
  | alloc b v a => exact ⟨hl.1, hl.2.1, hl.2.2.mono hr.nalloc hr.pver hr.pF⟩
  | constr b v n => exact ⟨hl.1, hl.2.1, by rw [hr.data n (by simp [hl.1])]; exact hl.2.2⟩
  | nload b v n => exact ⟨hl.1, hl.2.1, by rw [hr.data n (by simp [hl.1])]; exact hl.2.2⟩
  | nstore b v n o =>
    exact ⟨hl.1, hl.2.1, by rw [hr.data n (by simp [hl.1])]; exact hl.2.2.1,
      by rw [hr.next n (by simp [hl.1])]; exact hl.2.2.2⟩
  | pTail n => exact PN.stable hr hl
  | pNext n T => obtain ⟨h1, x, h2⟩ := hl; exact ⟨h1.stable hr, x, h2.mono hr⟩
  | pCheck n T N =>
    obtain ⟨h1, x, h2, h3, h4⟩ := hl
    have hnv := hr.nv x h2.2.2.2.1
    refine ⟨h1.stable hr, x, h2.mono hr, by omega, fun he => ?_⟩
    obtain ⟨h5, h6, h7⟩ := h2.back hr he
    obtain ⟨h8, h9, h10⟩ := h4 h5
    refine ⟨h8, fun hv => ?_, fun y hy => h2.next_stable hr (fun _ => h10 y hy) he⟩
    rcases hr.tnx h6 x h7 with ⟨h11, h12⟩ | ⟨_, h12⟩
    · rw [h11]; exact h9 (by omega)
    · omega
  | pCas n T N =>
    obtain ⟨h1, x, h2, h3, h4, h5⟩ := hl
    have hnv := hr.nv x h2.2.2.2.1
    refine ⟨h1.stable hr, x, h2.mono hr, by omega, h4, fun he => ?_⟩
    obtain ⟨h6, h7⟩ := h5 (by omega)
    have h8 : s.tail.ptr = some x := by rw [h2.2.2.2.2 h7.symm]; exact h2.2.2.1
    have := hr.last x h6 h8 (by omega)
    exact ⟨this.1, by omega⟩
  | swing k T y =>
    obtain ⟨⟨x, h1, h2⟩, h3⟩ := hl
    refine ⟨⟨x, h1.mono hr, h1.next_stable hr h2⟩, ?_⟩
    cases k with
    | retryPush n => exact PN.stable hr h3
    | _ => exact h3
  | cTail H => obtain ⟨h1, h2, x, h3⟩ := hl; exact ⟨h1, h2, x, h3.mono hr⟩
  | cNext H T =>
    obtain ⟨h1, h2, x, z, h3, h4, h5⟩ := hl
    exact ⟨h1, h2, x, z, h3.mono hr, h4.mono hr, fun he hz => h3.fwd_stable hr (fun h => h5 h hz) he⟩
  | cCheck H T N =>
    obtain ⟨h1, P, h2, x, z, h3, h4, h5, h6, h7, h8⟩ := hl
    refine ⟨h1, P, h2, x, z, h3.mono hr, h4.mono hr, fun he hz => h3.fwd_stable hr (fun h => h5 h hz) he,
      fun he => h6 (h3.back hr he).1, fun he y hy => h3.next_stable hr (fun h => h7 h y hy) he,
      fun he hz y hy => ?_⟩
    subst hz
    exact h4.next_stable hr (fun h => h8 h rfl y hy) he
  | cData H y =>
    obtain ⟨h1, h2, h0, x, h3, h4⟩ := hl
    exact ⟨h1, h2, Nat.lt_of_lt_of_le h0 hr.nalloc, x, h3.mono hr, fun he => ⟨h3.fwd_stable hr (fun h => (h4 h).1) he,
      h3.next_stable hr (fun h => (h4 h).2) he⟩⟩
  | cCas H y v =>
    obtain ⟨h1, h2, x, h3, h4⟩ := hl
    refine ⟨h1, h2, x, h3.mono hr, fun he => ⟨h3.fwd_stable hr (fun h => (h4 h).1) he,
      h3.next_stable hr (fun h => (h4 h).2.1) he, ?_⟩⟩
    obtain ⟨h5, h6, h7⟩ := h3.back hr he
    rw [(hr.hnx h6 x y h7 (h4 h5).2.1).2]; exact (h4 h5).2.2
  | free k n d =>
    obtain ⟨rfl, h2, h3, h4⟩ := hl
    refine ⟨rfl, by rw [hr.data n (by simp)]; exact h2, ?_, h4⟩
    cases d <;> simp_all [DLocal, hr.next n (by simp)]
  | _ => exact hl

end

/-! ### Steps on the shared state -/

/-- What a step of thread `t` guarantees to the others; `lk`: the step may leak nodes. -/
structure Guar (lk : Bool) (t : Nat) (s : St α) (g : G) (s' : St α) (g' : G) : Prop where
  others : ∀ t', t' ≠ t → g'.held t' = g.held t'
  frame : ∀ m, g.own m ≠ .thr t → g'.own m ≠ .thr t → s'.heap.data m = s.heap.data m ∧
    ((s'.heap.next m = s.heap.next m ∧ s'.heap.nver m = s.heap.nver m) ∨
      (g.own m = .str ∧ (s.heap.next m).ptr = none ∧ s'.heap.nver m = s.heap.nver m + 1))
  nalloc : s.heap.nalloc ≤ s'.heap.nalloc
  nv : ∀ n < s.heap.nalloc, s.heap.nver n ≤ s'.heap.nver n
  pver : s.heap.poolVer ≤ s'.heap.poolVer
  pF : s'.heap.poolVer = s.heap.poolVer → ∀ n ∈ g.F, n ∈ g'.F
  hver : s.headVer ≤ s'.headVer
  tver : s.tailVer ≤ s'.tailVer
  hd : s'.headVer = s.headVer → s'.head = s.head
  tl : s'.tailVer = s.tailVer → s'.tail = s.tail
  fwd : s'.headVer = s.headVer → s'.tail.ptr = s.head.ptr → s.tail.ptr = s.head.ptr
  last : ∀ x, g.L.getLast? = some x → s.tail.ptr = some x → s'.heap.nver x = s.heap.nver x →
    g'.L.getLast? = some x ∧ s'.tailVer = s.tailVer
  keep : ∀ m, g.own m = .lost → g'.own m = .lost
  lost : ∀ m, g'.own m = .lost → g.own m = .lost ∨ (lk = true ∧ g.own m = .thr t)
  drop : lk = true → ∀ m, g.own m = .thr t → g'.own m = .thr t ∨ g'.own m = .lost

theorem SI.tail_mem {cfg : Cfg} {s : St α} {g σ} (hi : SI cfg s g σ) {x} (hx : s.tail.ptr = some x) :
    x ∈ g.L := by
  obtain ⟨A, z, h1, h2⟩ := hi.tl
  rw [hx] at h1; cases h1
  rcases h2 with h2 | ⟨y, h2⟩ <;> rw [h2] <;> simp

theorem SI.head_cons {cfg : Cfg} {s : St α} {g σ} (hi : SI cfg s g σ) :
    ∃ x L', g.L = x :: L' ∧ s.head.ptr = some x ∧ Chain s.heap.next (s.heap.next x).ptr L' := by
  have hc := hi.chain
  cases hL : g.L with
  | nil =>
    obtain ⟨A, z, _, h2⟩ := hi.tl
    rcases h2 with h2 | ⟨y, h2⟩ <;> simp [hL] at h2
  | cons x L' => rw [hL] at hc; exact ⟨x, L', rfl, hc⟩

theorem Guar.rely {cfg : Cfg} {lk t s g s' g' σ σ'} (hg : Guar (α := α) lk t s g s' g') (hi : SI cfg s g σ)
    (hi' : SI cfg s' g' σ') {t'} (ht : t' ≠ t) : Rely (g.held t') s g.F g.L s' g'.F g'.L := by
  have hown : ∀ n ∈ g.held t', g.own n = .thr t' ∧ g'.own n = .thr t' := by
    intro n hn
    exact ⟨(hi.heap.hmem t' n).2 hn, (hi'.heap.hmem t' n).2 (by rw [hg.others t' ht]; exact hn)⟩
  refine ⟨fun n hn => ?_, fun n hn => ?_, hg.nalloc, hg.nv, hg.pver, fun he n hn => ?_, hg.hver, hg.tver, hg.hd,
    hg.tl, hg.fwd, hg.last, fun he x hx => ?_, fun he x y hx hy => ?_⟩
  · have := hown n hn
    rcases (hg.frame n (by grind) (by grind)).2 with h | h
    · exact h.1
    · grind
  · have := hown n hn
    exact (hg.frame n (by grind) (by grind)).1
  · have h1 := hg.pF he n hn
    have := (hi.heap.fmem n).2 hn
    have := (hi'.heap.fmem n).2 h1
    refine ⟨h1, ?_⟩
    rcases (hg.frame n (by grind) (by grind)).2 with h | h
    · rw [h.1]
    · grind
  · have h1 := (hi.mem x).2 (hi.tail_mem hx)
    have h2 := (hi'.mem x).2 (hi'.tail_mem (by rw [hg.tl he]; exact hx))
    rcases (hg.frame x (by grind) (by grind)).2 with h | h
    · exact .inl h
    · exact .inr h.2
  · obtain ⟨a, L', hL, ha, hc⟩ := hi.head_cons
    obtain ⟨a', L'', hL', ha', hc'⟩ := hi'.head_cons
    rw [hx] at ha; cases ha
    rw [hg.hd he, hx] at ha'; cases ha'
    have h1 := (hi.mem x).2 (by simp [hL])
    have h2 := (hi'.mem x).2 (by simp [hL'])
    have h3 : s'.heap.next x = s.heap.next x := by
      rcases (hg.frame x (by grind) (by grind)).2 with h | h
      · exact h.1
      · rw [hy] at h; simp at h
    refine ⟨h3, ?_⟩
    have h4 := (hi.mem y).2 (by rw [hL]; simp [hc.mem_some hy])
    have h5 := (hi'.mem y).2 (by rw [hL']; simp [hc'.mem_some (by rw [h3]; exact hy)])
    exact (hg.frame y (by grind) (by grind)).1

theorem Guar.refl (lk : Bool) (t : Nat) (s : St α) (g : G) : Guar lk t s g s g :=
  ⟨fun _ _ => rfl, fun _ _ _ => ⟨rfl, .inl ⟨rfl, rfl⟩⟩, Nat.le_refl _, fun _ _ => Nat.le_refl _, Nat.le_refl _,
    fun _ _ h => h, Nat.le_refl _, Nat.le_refl _, fun _ => rfl, fun _ => rfl, fun _ h => h,
    fun _ h _ _ => ⟨h, rfl⟩, fun _ h => h, fun _ h => .inl h, fun _ _ h => .inl h⟩

/-- Freelist steps, and writes to owned nodes. -/
theorem SI.fl {cfg : Cfg} {t s g σ} (hi : SI (α := α) cfg s g σ) {h' own' F' held'}
    (hs : HStep cfg t s.heap g.own g.F g.held h' own' F' held') (ht : TagsOk cfg h')
    (hnv : ∀ n < s.heap.nalloc, s.heap.nver n ≤ h'.nver n) :
    SI cfg { s with heap := h' } ⟨own', F', g.L, held'⟩ σ ∧
      Guar false t s g { s with heap := h' } ⟨own', F', g.L, held'⟩ := by
  have hfr : ∀ n ∈ g.L, h'.next n = s.heap.next n ∧ h'.data n = s.heap.data n := by
    intro n hn
    have h1 := (hi.mem n).2 hn
    have h2 := (hs.str n).2 h1
    have := hs.frame n (by grind) (by grind)
    exact ⟨this.1, this.2.1⟩
  refine ⟨⟨hs.inv, hi.chain.congr fun n hn => by rw [(hfr n hn).1], hi.nodup,
    fun n => (hs.str n).trans (hi.mem n), hi.htag, hi.ttag, ht, ?_, hi.tl⟩, ?_⟩
  · rw [← hi.data]; exact List.map_congr_left fun n hn => (hfr n (List.mem_of_mem_tail hn)).2
  · exact ⟨hs.others, fun m h1 h2 => ⟨(hs.frame m h1 h2).2.1, .inl ⟨(hs.frame m h1 h2).1, (hs.frame m h1 h2).2.2⟩⟩,
      hs.nalloc, hnv, hs.pver, hs.pF, Nat.le_refl _, Nat.le_refl _, fun _ => rfl, fun _ => rfl, fun _ h => h,
      fun _ h _ _ => ⟨h, rfl⟩, fun m => (hs.lost m).2, fun m h => .inl ((hs.lost m).1 h), by simp⟩

theorem SI.setData {cfg : Cfg} {t s g σ} (hi : SI (α := α) cfg s g σ) {n : Nat} (hn : n ∈ g.held t)
    (d : Option α) :
    SI cfg { s with heap := s.heap.setData n d } g σ ∧
      Guar false t s g { s with heap := s.heap.setData n d } g := by
  have hthr := (hi.heap.hmem t n).2 hn
  have hs : HStep cfg t s.heap g.own g.F g.held (s.heap.setData n d) g.own g.F g.held := by
    refine ⟨⟨hi.heap.chain, hi.heap.fnodup, hi.heap.fmem, hi.heap.hmem, hi.heap.hnodup, hi.heap.raw,
      hi.heap.tag, ?_⟩, fun _ _ => rfl, ?_, fun _ => Iff.rfl, Nat.le_refl _, Nat.le_refl _, fun _ _ h => h,
      fun _ => Iff.rfl, fun _ => .inl rfl, fun _ _ => Iff.rfl⟩
    · intro m hm
      have := hi.heap.fdata m hm
      simp only [Heap.setData]; grind
    · intro m; simp only [Heap.setData]; grind
  exact hi.fl hs hi.ntag fun _ _ => Nat.le_refl _

/-- The store of the node constructor. -/
theorem SI.nstore {cfg : Cfg} {t s g σ} (hi : SI (α := α) cfg s g σ) {n : Nat} (hn : n ∈ g.held t) :
    let h' : Heap α := { s.heap with next := upd s.heap.next n ⟨none, cfg.nextTag (s.heap.next n).tag⟩,
                                     nver := upd s.heap.nver n (s.heap.nver n + 1) }
    SI cfg { s with heap := h' } g σ ∧ Guar false t s g { s with heap := h' } g := by
  intro h'
  have hthr := (hi.heap.hmem t n).2 hn
  have hs : HStep cfg t s.heap g.own g.F g.held h' g.own g.F g.held := by
    refine ⟨⟨?_, hi.heap.fnodup, hi.heap.fmem, hi.heap.hmem, hi.heap.hnodup, hi.heap.raw,
      hi.heap.tag, hi.heap.fdata⟩, fun _ _ => rfl, ?_, fun _ => Iff.rfl, Nat.le_refl _, Nat.le_refl _,
      fun _ _ h => h, fun _ => Iff.rfl, fun _ => .inl rfl, fun _ _ => Iff.rfl⟩
    · exact hi.heap.chain.congr fun m hm => by
        have := (hi.heap.fmem m).2 hm
        simp only [h']; grind
    · intro m; simp only [h']; grind
  refine hi.fl hs ?_ ?_
  · intro m
    have := hi.ntag m
    have := hi.ntag n
    simp only [h', upd_apply]
    split
    · simp [Cfg.nextTag, hi.ntag n]
    · assumption
  · intro m _; simp only [h', upd_apply]; split <;> simp_all

/-- Leaking all held nodes. -/
def G.lose (g : G) (t : Nat) : G :=
  { g with own := fun m => if m ∈ g.held t then .lost else g.own m, held := upd g.held t [] }

theorem SI.lose {cfg : Cfg} {t s g σ} (hi : SI (α := α) cfg s g σ) :
    SI cfg s (g.lose t) σ ∧ Guar true t s g s (g.lose t) := by
  have hhm := hi.heap.hmem
  refine ⟨⟨⟨hi.heap.chain, hi.heap.fnodup, ?_, ?_, ?_, ?_, hi.heap.tag, ?_⟩, hi.chain, hi.nodup, ?_, hi.htag,
    hi.ttag, hi.ntag, hi.data, hi.tl⟩, ?_, fun _ _ _ => ⟨rfl, .inl ⟨rfl, rfl⟩⟩, Nat.le_refl _,
    fun _ _ => Nat.le_refl _, Nat.le_refl _,
    fun _ _ h => h, Nat.le_refl _, Nat.le_refl _, fun _ => rfl, fun _ => rfl, fun _ h => h,
    fun _ h _ _ => ⟨h, rfl⟩, ?_, ?_, ?_⟩
  · intro n; have := hi.heap.fmem n; have := hhm t n; simp only [G.lose]; grind
  · intro t' n; have := hhm t n; have := hhm t' n; simp only [G.lose]; grind
  · intro t'; have := hi.heap.hnodup t'; simp only [G.lose]; grind
  · intro n; have := hi.heap.raw n; have := hhm t n; simp only [G.lose]; grind
  · intro n; have := hi.heap.fdata n; have := hhm t n; simp only [G.lose]; grind
  · intro n; have := hi.mem n; have := hhm t n; simp only [G.lose]; grind
  · intro t' ht; simp only [G.lose]; grind
  · intro m; simp only [G.lose]; grind
  · intro m; have := hhm t m; simp only [G.lose]; grind
  · intro _ m; have := hhm t m; simp only [G.lose]; grind

theorem Chain.snoc {next : Nat → Tagged} {p L x} (hc : Chain next p L) (hl : L.getLast? = some x)
    (hnd : L.Nodup) {n : Nat} (hn : n ∉ L) (hnn : (next n).ptr = none) (w : Tagged) (hw : w.ptr = some n) :
    Chain (upd next x w) p (L ++ [n]) := by
  have h1 := hc.seg.setLast hl hnd w
  refine h1.chain ⟨hw, ?_⟩
  have : n ≠ x := by rintro rfl; exact hn (List.mem_of_getLast? hl)
  rw [upd_ne _ _ _ this, hnn]
  rfl

theorem Chain.last_null {next : Nat → Tagged} {p L x} (hc : Chain next p L) (hl : L.getLast? = some x) :
    (next x).ptr = none := by
  induction L generalizing p with
  | nil => simp at hl
  | cons a L ih =>
    obtain ⟨_, h2⟩ := hc
    cases L with
    | nil => simp at hl; subst hl; exact h2
    | cons b L => rw [List.getLast?_cons_cons] at hl; exact ih h2 hl

theorem Chain.next_mem {next : Nat → Tagged} {p A x y} {B : List Nat} (hc : Chain next p (A ++ x :: y :: B)) :
    (next x).ptr = some y := by
  induction A generalizing p with
  | nil => exact hc.2.1
  | cons a A ih => exact ih hc.2

/-- Successful compare-exchange of the last link: node `n` is appended. -/
theorem SI.link {cfg : Cfg} {t s g σ} (hi : SI (α := α) cfg s g σ) {n x : Nat} {v : α} (hh : g.held t = [n])
    (hd : s.heap.data n = some v) (hnn : (s.heap.next n).ptr = none) (hx : g.L.getLast? = some x)
    (ht : s.tail.ptr = some x) :
    let s' : St α := { s with heap := { s.heap with
      next := upd s.heap.next x ⟨some n, cfg.nextTag (s.heap.next x).tag⟩
      nver := upd s.heap.nver x (s.heap.nver x + 1) } }
    let g' : G := { own := upd g.own n .str, F := g.F, L := g.L ++ [n], held := upd g.held t [] }
    SI cfg s' g' (σ ++ [v]) ∧ Guar false t s g s' g' ∧ (s'.heap.next x).ptr = some n := by
  intro s' g'
  have hhm := hi.heap.hmem
  have hthr := (hhm t n).2 (by simp [hh])
  have hnL : n ∉ g.L := fun h => by have := (hi.mem n).2 h; grind
  have hxL : x ∈ g.L := List.mem_of_getLast? hx
  have hxs := (hi.mem x).2 hxL
  have hxn := Chain.last_null hi.chain hx
  refine ⟨⟨⟨?_, hi.heap.fnodup, ?_, ?_, ?_, ?_, hi.heap.tag, ?_⟩, ?_, ?_, ?_, hi.htag, hi.ttag, ?_, ?_, ?_⟩,
    ⟨?_, ?_, Nat.le_refl _, ?_, Nat.le_refl _, fun _ _ h => h, Nat.le_refl _, Nat.le_refl _, fun _ => rfl,
      fun _ => rfl, fun _ h => h, ?_, ?_, ?_, by simp⟩, ?_⟩
  · exact hi.heap.chain.congr fun m hm => by
      have := (hi.heap.fmem m).2 hm
      simp only [s']; grind
  · intro m; have := hi.heap.fmem m; simp only [g']; grind
  · intro t' m; have := hhm t m; have := hhm t' m; simp only [g']; grind
  · intro t'; have := hi.heap.hnodup t'; simp only [g']; grind
  · intro m; have := hi.heap.raw m; simp only [g', s']; grind
  · intro m; have := hi.heap.fdata m; simp only [g', s']; grind
  · exact Chain.snoc hi.chain hx hi.nodup hnL hnn _ rfl
  · simp only [g']
    rw [List.nodup_append]
    exact ⟨hi.nodup, by simp, fun a ha b hb hab => by simp at hb; subst hab; subst hb; exact hnL ha⟩
  · intro m; have := hi.mem m; simp only [g']; grind
  · intro m
    have h1 := hi.ntag m
    simp only [s', upd_apply]
    split
    · simp [Cfg.nextTag, hi.ntag x]
    · exact h1
  · simp only [g', s']
    rw [List.tail_append_of_ne_nil (by rintro h; rw [h] at hxL; simp at hxL)]
    simp [hi.data, hd]
  · obtain ⟨A, z, h1, h2⟩ := hi.tl
    simp only [s', g']
    rw [ht] at h1; cases h1
    rcases h2 with h2 | ⟨y, h2⟩
    · exact ⟨A, x, ht, .inr ⟨n, by simp [h2]⟩⟩
    · exfalso
      rw [h2] at hx
      have hnd := hi.nodup
      rw [h2] at hnd
      simp at hx; subst hx
      simp [List.nodup_append] at hnd
  · intro t' h; simp [g', upd_ne _ _ _ h]
  · intro m h1 h2
    refine ⟨rfl, ?_⟩
    simp only [s', upd_apply]
    split
    · rename_i hm; subst hm; exact .inr ⟨hxs, hxn, rfl⟩
    · exact .inl ⟨rfl, rfl⟩
  · intro m _; simp only [s', upd_apply]; split <;> simp_all
  · intro z hz hz'
    rw [hx] at hz; cases hz
    simp [s']
  · intro m; simp only [g']; grind
  · intro m; simp only [g']; grind
  · simp [s']

/-- Successful swing of the tail. -/
theorem SI.swing {cfg : Cfg} {t s g σ} (hi : SI (α := α) cfg s g σ) {x y : Nat} (hx : s.tail.ptr = some x)
    (hy : (s.heap.next x).ptr = some y) :
    let s' : St α := { s with tail := ⟨some y, cfg.nextTag s.tail.tag⟩, tailVer := s.tailVer + 1 }
    SI cfg s' g σ ∧ Guar false t s g s' g ∧ g.L.getLast? = some y := by
  intro s'
  obtain ⟨A, z, h1, h2⟩ := hi.tl
  rw [hx] at h1; cases h1
  rcases h2 with h2 | ⟨w, h2⟩
  · exfalso
    have := Chain.last_null hi.chain (x := x) (by simp [h2])
    rw [hy] at this; simp at this
  · have hc := hi.chain
    rw [h2] at hc
    have h3 := Chain.next_mem hc
    rw [hy] at h3; cases h3
    have hnd := hi.nodup
    rw [h2] at hnd
    have hxy : x ≠ y := by rintro rfl; simp [List.nodup_append] at hnd
    have hL : g.L.getLast? = some y := by simp [h2]
    refine ⟨⟨hi.heap, hi.chain, hi.nodup, hi.mem, hi.htag, ?_, hi.ntag, hi.data, ?_⟩,
      ⟨fun _ _ => rfl, fun _ _ _ => ⟨rfl, .inl ⟨rfl, rfl⟩⟩, Nat.le_refl _, fun _ _ => Nat.le_refl _,
        Nat.le_refl _, fun _ _ h => h, Nat.le_refl _, Nat.le_succ _, fun _ => rfl, ?_, ?_, ?_, fun _ h => h,
        fun _ h => .inl h, by simp⟩, hL⟩
    · simp [s', Cfg.nextTag, hi.ttag]
    · exact ⟨A ++ [x], y, rfl, .inl (by simp [h2])⟩
    · simp [s']
    · intro _ h
      simp only [s'] at h
      exfalso
      obtain ⟨a, L', hL', ha, _⟩ := hi.head_cons
      rw [ha] at h; cases h
      rw [h2] at hL'
      cases A with
      | nil => simp at hL'; exact hxy hL'.1
      | cons b A =>
        simp at hL'
        rw [hL'.1] at hnd
        simp at hnd
    · intro z hz hz'
      rw [hL] at hz; cases hz
      rw [hx] at hz'; cases hz'
      exact absurd rfl hxy

/-- Successful compare-exchange of `pop`. -/
theorem SI.pop {cfg : Cfg} {t s g σ} (hi : SI (α := α) cfg s g σ) (hh : g.held t = []) {x y : Nat} {v : α}
    (hx : s.head.ptr = some x) (ht : s.tail.ptr ≠ some x) (hy : (s.heap.next x).ptr = some y)
    (hv : s.heap.data y = some v) :
    ∃ σ' L', σ = v :: σ' ∧ g.L = x :: y :: L' ∧
    (let s' : St α := { s with head := ⟨some y, cfg.nextTag s.head.tag⟩, headVer := s.headVer + 1 }
     let g' : G := { own := upd g.own x (.thr t), F := g.F, L := y :: L', held := upd g.held t [x] }
     SI cfg s' g' σ' ∧ Guar false t s g s' g') := by
  have hhm := hi.heap.hmem
  obtain ⟨a, L0, hL, ha, hc⟩ := hi.head_cons
  rw [hx] at ha; cases ha
  obtain ⟨L', hL0, hc'⟩ := hc.head hy
  subst hL0
  have hdt := hi.data
  rw [hL] at hdt
  cases σ with
  | nil => simp at hdt
  | cons w σ' =>
    simp only [List.tail_cons, List.map_cons, List.cons.injEq] at hdt
    have hw : w = v := by have := hdt.1; rw [hv] at this; simpa using this.symm
    subst hw
    have hstr : g.own x = .str := (hi.mem x).2 (by simp [hL])
    have hnd := hi.nodup
    rw [hL, List.nodup_cons] at hnd
    refine ⟨σ', L', rfl, hL, ⟨⟨hi.heap.chain, hi.heap.fnodup, ?_, ?_, ?_, ?_, hi.heap.tag, ?_⟩, ⟨rfl, hc'⟩,
      hnd.2, ?_, ?_, hi.ttag, hi.ntag, hdt.2, ?_⟩, ⟨?_, fun _ _ _ => ⟨rfl, .inl ⟨rfl, rfl⟩⟩, Nat.le_refl _,
      fun _ _ => Nat.le_refl _, Nat.le_refl _, fun _ _ h => h, Nat.le_succ _, Nat.le_refl _, ?_, fun _ => rfl,
      ?_, ?_, ?_, ?_, by simp⟩⟩
    · intro m; have := hi.heap.fmem m; grind
    · intro t' m; have := hhm t m; have := hhm t' m; grind
    · intro t'; have := hi.heap.hnodup t'; grind
    · intro m; have := hi.heap.raw m; grind
    · intro m; have := hi.heap.fdata m; grind
    · intro m; have := hi.mem m; grind
    · simp [Cfg.nextTag, hi.htag]
    · obtain ⟨A, z, h1, h2⟩ := hi.tl
      rw [hL] at h2
      cases A with
      | nil =>
        exfalso
        rcases h2 with h2 | ⟨w', h2⟩
        · simp at h2
        · simp at h2; exact ht (by rw [h1, h2.1])
      | cons a A =>
        refine ⟨A, z, h1, ?_⟩
        rcases h2 with h2 | ⟨w', h2⟩
        · left; simp at h2; exact h2.2
        · right; simp at h2; exact ⟨w', h2.2⟩
    · intro t' ht'; simp [upd_ne _ _ _ ht']
    · intro he; simp at he
    · intro he; simp at he
    · intro z hz _ _
      refine ⟨?_, rfl⟩
      rw [hL, List.getLast?_cons_cons] at hz
      exact hz
    · intro m; grind
    · intro m; grind

theorem SI.headSnap {cfg : Cfg} {s g σ} (hi : SI (α := α) cfg s g σ) :
    ∃ x, HS cfg s s.headSnap x := by
  obtain ⟨x, L', hL, hx, _⟩ := hi.head_cons
  refine ⟨x, Nat.le_refl _, hi.htag, hx, ?_, fun _ => rfl⟩
  have := (hi.mem x).2 (by simp [hL])
  exact hi.heap.lt (by grind)

theorem SI.tailSnap {cfg : Cfg} {s g σ} (hi : SI (α := α) cfg s g σ) :
    ∃ x, TS cfg s s.tailSnap x := by
  obtain ⟨A, x, hx, _⟩ := hi.tl
  refine ⟨x, Nat.le_refl _, hi.ttag, hx, ?_, fun _ => rfl⟩
  have := (hi.mem x).2 (hi.tail_mem hx)
  exact hi.heap.lt (by grind)

theorem SI.empty_iff {cfg : Cfg} {s g σ} (hi : SI (α := α) cfg s g σ) {x} (hx : s.head.ptr = some x) :
    (s.heap.next x).ptr = none ↔ σ = [] := by
  obtain ⟨a, L', hL, ha, hc⟩ := hi.head_cons
  rw [hx] at ha; cases ha
  have hd := hi.data
  rw [hL] at hd
  simp only [List.tail_cons] at hd
  constructor
  · intro h
    rw [h] at hc
    rw [hc.eq_nil] at hd
    cases σ <;> simp at hd ⊢
  · rintro rfl
    have : L' = [] := by cases L' <;> simp at hd ⊢
    rw [this] at hc
    exact hc

end Queue
end Verif
