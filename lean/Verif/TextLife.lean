import Verif.TextTotal
import Verif.TextUnsync
import Verif.WordReps

/-!
# Constructors and destructors of the freelists as structured programs (C59)

The constructors of `freelist_stack` (freelist.hpp:52-66) and `fixed_size_freelist` (freelist.hpp:360-383, 404-430) and their destructors (freelist.hpp:119-129, 380-383),
line by line, on stored words. The macro `BOOST_LOCKFREE_FREELIST_INIT_RUNS_DTOR` is not defined.
-/

namespace Verif.Text
open Lin

/-- What a container consists of, with the nodes given back to the allocator, latest first. `x`: the members other than the freelist. -/
structure Life (K : Words) (α X : Type) where
  mem : SMem K α
  freed : List Nat
  x : X

/-- Local variables of constructors and destructors. -/
structure LifeVars (K : Words) where
  /-- those of the freelist -/
  fl : PoolVars K
  i : Nat
  /-- `n`, `count` -/
  count : Nat
  current : K.W
  current_ptr : Option Nat
  /-- `n` in `queue::initialize` -/
  n : Option Nat
  dummy_node : K.W
  /-- whether the function has returned, not thrown -/
  returned : Bool

/-- What is called: the constructor for `n` nodes, and the destructor of the member `pool` with what precedes it in the destructor of the container. -/
inductive LifeOp where
  | construct (n : Nat)
  | destroy

variable {α X : Type} {R : Rep}

abbrev LifeStm (R : Rep) (α X : Type) := PStm R α (Life R.K α X) (LifeVars R.K) LifeOp
abbrev LifeAcc (R : Rep) (α X : Type) := Access (Life R.K α X) (LifeVars R.K) (SChoice R.K LifeOp α)
abbrev LifeRest (R : Rep) (α X : Type) := Rest (Life R.K α X) (LifeVars R.K) (SChoice R.K LifeOp α)

/-- The member `pool`. -/
def lifePort (R : Rep) (α X : Type) : Port R α (Life R.K α X) (LifeVars R.K) where
  mem := Life.mem
  setMem s m := { s with mem := m }
  fl := LifeVars.fl
  setFl l x := { l with fl := x }
  mem_set _ _ := rfl
  fl_set _ _ := rfl
  set_set _ _ _ := rfl
  set_fl _ := rfl

/-- A statement that only assigns to members. -/
def assign (f : Life R.K α X → LifeVars R.K → Life R.K α X) : LifeAcc R α X where
  run _ s l
    | .go => some (f s l, l, .next)
    | _ => none

/-- `pool_( tagged_node_ptr( NULL ) )` (freelist.hpp:54), `pool_( tagged_index( static_cast< index_t >( count ), 0 ) )` (freelist.hpp:427, 433): a null handle with
tag 0. -/
def initPool : LifeAcc R α X := assign fun s _ => { s with mem := { s.mem with pool := R.K.pack (R.K.hnd none) (R.encT 0), poolVer := 0 } }

/-- The loop of the constructor of `freelist_stack` (freelist.hpp:56-64). -/
def poolCtorLoop : LifeStm R α X :=
  .ite (fun l => l.i == l.count) .brk .skip ;;
  .acc ((lifePort R α X).osAllocate fun v n => { v with n := n }) ;;
  .fn (lifePort R α X).deallocateU ;;
  .set (fun l => { l with i := l.i + 1 })

/-- `freelist_stack( alloc, n )` (freelist.hpp:52-66). -/
def poolCtor : LifeStm R α X :=
  .acc initPool ;;
  .set (fun l => { l with i := 0 }) ;;
  .forever poolCtorLoop

/-- `runtime_sized_freelist_storage( alloc, count )` (freelist.hpp:368-378): throws if there are more than 65535 nodes, or if there is no memory;
`compiletime_sized_freelist_storage` (freelist.hpp:342-346) does not throw. The memory is filled with zeros. -/
def storageCtor : LifeAcc R α X where
  run _ s l
    | .go =>
      if l.count > 65535 then some (s, l, .throws)
      else some ({ s with mem := { s.mem with nalloc := l.count, next := fun _ => R.zero, nver := fun _ => 0, data := fun _ => none } }, l, .next)
    | .throw => some (s, l, .throws)
    | _ => none

/-- `next_index->set_index( null_handle() )` for the node with index `i` (freelist.hpp:408-409). -/
def setIndexNull : LifeAcc R α X where
  run _ s l
    | .go => if l.i < s.mem.nalloc then some ({ s with mem := s.mem.setLink l.i (R.K.hnd none) }, l, .next) else some (s, l, .ub)
    | _ => none

/-- The loop of `fixed_size_freelist::initialize` (freelist.hpp:407-416). -/
def arrayCtorLoop : LifeStm R α X :=
  .ite (fun l => l.i == l.count) .brk .skip ;;
  .acc setIndexNull ;;
  .set (fun l => { l with fl := { l.fl with n := some l.i } }) ;;
  .fn (lifePort R α X).deallocateU ;;
  .set (fun l => { l with i := l.i + 1 })

/-- `fixed_size_freelist( alloc, count )` (freelist.hpp:404-430). -/
def arrayCtor : LifeStm R α X :=
  .acc storageCtor ;;
  .acc initPool ;;
  .set (fun l => { l with i := 0 }) ;;
  .forever arrayCtorLoop

/-- The constructor of the member `pool`. -/
def freelistCtor : LifeStm R α X := .fn (if R.fixed then arrayCtor else poolCtor)

/-- `current = pool_.load()` (freelist.hpp:121). -/
def loadCurrent : LifeAcc R α X where
  run _ s l
    | .go => some (s, { l with current := s.mem.pool }, .next)
    | _ => none

/-- `current = current_ptr->next` (freelist.hpp:126): undefined behaviour if the allocator does not currently lend the node. -/
def nextCurrent : LifeAcc R α X where
  run _ s l ch :=
    match l.current_ptr, ch with
    | none, _ => some (s, l, .ub)
    | some n, .go => if n ∈ s.freed ∨ s.mem.nalloc ≤ n then some (s, l, .ub) else some (s, { l with current := s.mem.next n }, .next)
    | _, _ => none

/-- `Alloc::deallocate( (T*)current_ptr, 1 )` (freelist.hpp:127). -/
def osDeallocate : LifeAcc R α X where
  run _ s l ch :=
    match l.current_ptr, ch with
    | none, _ => some (s, l, .ub)
    | some n, .go => if n ∈ s.freed ∨ s.mem.nalloc ≤ n then some (s, l, .ub) else some ({ s with freed := n :: s.freed }, l, .next)
    | _, _ => none

/-- The loop of `~freelist_stack` (freelist.hpp:123-128). -/
def poolDtorLoop : LifeStm R α X :=
  .ite (fun l => (R.K.node (R.K.ptr l.current)).isNone) .brk .skip ;;
  .set (fun l => { l with current_ptr := R.K.node (R.K.ptr l.current) }) ;;
  .ite (fun l => l.current_ptr.isSome)
    (.acc nextCurrent)
    .skip ;;
  .acc osDeallocate

/-- `~freelist_stack` (freelist.hpp:119-129). -/
def poolDtor : LifeStm R α X :=
  .acc loadCurrent ;;
  .forever poolDtorLoop

/-- `~runtime_sized_freelist_storage` (freelist.hpp:380-383): the array is given back as a whole. The array of `compiletime_sized_freelist_storage` is a member: its
memory ends with that of the container. -/
def storageDtor : LifeAcc R α X where
  run _ s l
    | .go => if s.freed = [] then some ({ s with freed := (List.range s.mem.nalloc).reverse }, l, .next) else some (s, l, .ub)
    | _ => none

/-- The destructor of the member `pool`. -/
def freelistDtor : LifeStm R α X := .fn (if R.fixed then .acc storageDtor else poolDtor)

/-- A call: whether it has returned. -/
def lifeCall (a : LifeStm R α X) : LifeStm R α X :=
  .tryCatch (.fn a ;; .set fun l => { l with returned := true }) (.set fun l => { l with returned := false })

/-- The local variables before a call; words and handles: anything. -/
def LifeVars.init (w : R.K.W) : LifeVars R.K where
  fl := ⟨⟨w, 0⟩, R.K.ptr w, w, false, none, none⟩
  i := 0
  count := 0
  current := w
  current_ptr := none
  n := none
  dummy_node := w
  returned := false

/-- Memory before construction: no node has been allocated; the other members contain anything. -/
def Life.raw (R : Rep) (w : R.K.W) (v : Nat) (x : X) : Life R.K α X where
  mem := { next := fun _ => R.zero, nver := fun _ => 0, data := fun _ => none, nalloc := 0, pool := w, poolVer := v }
  freed := []
  x := x

/-! ### What the programs do -/

variable {t n m f j : Nat} {al : SChoice R.K LifeOp α → Prop} {Q : Life R.K α X → LifeVars R.K → LifeRest R α X → Prop} {s : Life R.K α X}
  {l : LifeVars R.K} {k : LifeRest R α X}

/-- Every execution of `k` ends where `Q` holds. -/
abbrev LEnds (al : SChoice R.K LifeOp α → Prop) (t : Nat) (Q : Life R.K α X → LifeVars R.K → LifeRest R α X → Prop) (n f : Nat) (s : Life R.K α X) (l : LifeVars R.K)
    (k : LifeRest R α X) : Prop := Ends t al isSpur Q n f s l k

/-- An access with one outcome. -/
theorem LEnds.go {a : LifeAcc R α X} {s' l'} (hg : al .go) (h : LEnds al t Q n f s' l' k) (hr : a.run t s l .go = some (s', l', .next) := by rfl)
    (hok : a.ok s l .go = true := by rfl)
    (ho : ∀ ch, ch ≠ .go → a.run t s l ch = none := by intro ch h; cases ch <;> first | rfl | exact absurd rfl h) :
    LEnds al t Q (n + 1) f s l (.stm (.acc a) :: k) :=
  Ends.only .go hg rfl hok hr ho h

/-- Executes steps without access. -/
macro "ctls" : tactic => `(tactic|
  (repeat (first
    | (refine Ends.tt ?_ ?_; (focus first | rfl | (simp [*]; done)))
    | (refine Ends.ff ?_ ?_; (focus first | rfl | (simp [*]; done)))
    | refine Ends.step rfl ?_)))

theorem assign_ends {g : Life R.K α X → LifeVars R.K → Life R.K α X} (hg : al .go) (h : LEnds al t Q n f (g s l) l k) :
    LEnds al t Q (n + 1) f s l (.stm (.acc (assign g)) :: k) := LEnds.go hg h

theorem deallocU_ends (hg : al .go) {c} (hn : l.fl.n = some c)
    (h : ∀ fl', LEnds al t Q m f { s with mem := s.mem.deallocUnsafe R c } { l with fl := fl' } k) :
    LEnds al t Q (m + 20) f s l (.stm (.fn (lifePort R α X).deallocateU) :: k) := by
  ctls
  refine LEnds.go hg ?_
  ctls
  refine LEnds.go (s' := { s with mem := s.mem.setLink c (R.K.ptr s.mem.pool) })
    (l' := { l with fl := { l.fl with old_pool := s.mem.poolSnap, new_pool := R.K.pack (R.K.hnd (some c)) (R.K.tag s.mem.pool) } }) hg ?_ ?_ ?_ ?_
  · refine LEnds.go hg ?_
    ctls
    exact (h _).mono (by omega)
  · simp [Port.setLink, Port.acc, lifePort, hn, SMem.poolSnap]
  · rfl
  · intro ch h
    cases ch <;> first | exact absurd rfl h | simp [Port.setLink, Port.acc, lifePort, hn]

theorem SMem.initial_nalloc (R : Rep) (n : Nat) : (SMem.initial R n : SMem R.K α).nalloc = n := by
  induction n with
  | zero => rfl
  | succ n ih => simp [SMem.initial, SMem.deallocUnsafe, SMem.setLink, SMem.malloc, ih]

theorem SMem.initial_data (R : Rep) (n : Nat) : (SMem.initial R n : SMem R.K α).data = fun _ => none := by
  induction n with
  | zero => rfl
  | succ n ih => simp only [SMem.initial, SMem.deallocUnsafe, SMem.setLink, SMem.malloc, ih]; exact upd_same rfl

theorem SMem.initial_nver (R : Rep) (n : Nat) : (SMem.initial R n : SMem R.K α).nver = fun _ => 0 := by
  induction n with
  | zero => rfl
  | succ n ih => simp only [SMem.initial, SMem.deallocUnsafe, SMem.setLink, SMem.malloc, ih]; exact upd_same rfl

theorem SMem.initial_next {R : Rep} {n m : Nat} (h : n ≤ m) : (SMem.initial R n : SMem R.K α).next m = R.zero := by
  induction n with
  | zero => rfl
  | succ n ih =>
    simp only [SMem.initial, SMem.deallocUnsafe, SMem.setLink, SMem.malloc, SMem.initial_nalloc]
    rw [upd_ne _ _ _ (by omega), upd_ne _ _ _ (by omega)]
    exact ih (by omega)

/-- The loop of the constructor of `freelist_stack`, before its pass number `l.i`. -/
theorem poolCtorLoop_ends (hg : al .go) (hl : l.count ≤ R.limit) {d : Nat} (hd : l.i + d = l.count) (hs : s.mem = SMem.initial R l.i)
    (hdone : ∀ l', l'.i = l.count → l'.count = l.count → LEnds al t Q m f { s with mem := SMem.initial R l.count } l' k)
    (hthrow : al .throw → ∀ j l', j < l.count → l'.count = l.count → LEnds al t Q m f { s with mem := SMem.initial R j } l' (toHandler k)) :
    LEnds al t Q (m + 40 * d + 10) f s l (.stm poolCtorLoop :: .loop poolCtorLoop :: k) := by
  induction d generalizing s l with
  | zero =>
    have h1 : l.i = l.count := hd
    ctls
    rw [show s = { s with mem := SMem.initial R l.count } by rw [← h1, ← hs]]
    exact (hdone l h1 rfl).mono (by omega)
  | succ d ih =>
    have h1 : (l.i == l.count) = false := by simp; omega
    ctls
    have hna : s.mem.nalloc = l.i := by rw [hs, SMem.initial_nalloc]
    have hlt : s.mem.nalloc < R.limit := by omega
    refine Ends.mono (n := (m + 40 * d + 10 + 2 + 20 + 1) + 1) ?_ (by omega)
    refine .acc ⟨.go, _, hg, rfl, rfl, by simp [Port.osAllocate, Port.acc, lifePort, hlt]; rfl⟩ ?_ ?_ ?_
    · intro ch s' l' _ _ h2
      cases ch <;> simp [Port.osAllocate, Port.acc] at h2
    · intro ch s' l' w ha _ _ h2
      cases ch <;> simp [Port.osAllocate, Port.acc, lifePort, hlt] at h2
      · obtain ⟨rfl, rfl, rfl⟩ := h2
        refine .step rfl ?_
        refine deallocU_ends (c := s.mem.nalloc) hg rfl fun fl' => ?_
        refine .step rfl (.step rfl ?_)
        refine ih (l := { l with i := l.i + 1, fl := fl' }) hl (by simp; omega) ?_ ?_ ?_
        · simp only [SMem.initial, hs, SMem.initial_nalloc]
        · exact fun l' a b => hdone l' a b
        · exact fun ha j l' a b => hthrow ha j l' a b
      · obtain ⟨rfl, rfl, rfl⟩ := h2
        rw [show s = { s with mem := SMem.initial R l.i } by rw [← hs]]
        exact (hthrow ha l.i l (by omega) rfl).mono (by omega)
    · intro ch s' l' w g _ _ h3 _ h2
      cases ch <;> simp [isSpur] at h3
      simp [Port.osAllocate, Port.acc] at h2

theorem SMem.with_nalloc {K : Words} {m : SMem K α} {c : Nat} (h : m.nalloc = c) : { m with nalloc := c } = m := by cases m; cases h; rfl

/-- What precedes the pass number `i` of the loop of `fixed_size_freelist::initialize`. -/
theorem arrayCtor_pass (hf : R.Faithful) {i c : Nat} (m : SMem R.K α) (hm : m = { SMem.initial R i with nalloc := c }) :
    (m.setLink i (R.K.hnd none)).deallocUnsafe R i = { SMem.initial R (i + 1) with nalloc := c } := by
  subst hm
  simp only [SMem.initial, SMem.deallocUnsafe, SMem.setLink, SMem.malloc, SMem.initial_nalloc, upd_self, upd_upd, hf.words.tag_pack, SMem.initial_data,
    SMem.initial_nver, SMem.initial_next (Nat.le_refl i)]
  rw [upd_same (f := fun _ => none) rfl, upd_same (f := fun _ => 0) rfl]

/-- The loop of `fixed_size_freelist::initialize`, before its pass number `l.i`. -/
theorem arrayCtorLoop_ends (hf : R.Faithful) (hg : al .go) {d : Nat} (hd : l.i + d = l.count) (hs : s.mem = { SMem.initial R l.i with nalloc := l.count })
    (hdone : ∀ l', l'.i = l.count → l'.count = l.count → LEnds al t Q m f { s with mem := SMem.initial R l.count } l' k) :
    LEnds al t Q (m + 40 * d + 10) f s l (.stm arrayCtorLoop :: .loop arrayCtorLoop :: k) := by
  induction d generalizing s l with
  | zero =>
    have h1 : l.i = l.count := hd
    ctls
    have h2 : ({ SMem.initial R l.i with nalloc := l.count } : SMem R.K α) = SMem.initial R l.count := by
      rw [← h1]; exact SMem.with_nalloc (SMem.initial_nalloc R _)
    rw [show s = { s with mem := SMem.initial R l.count } by rw [← h2, ← hs]]
    exact (hdone l h1 rfl).mono (by omega)
  | succ d ih =>
    have h1 : (l.i == l.count) = false := by simp; omega
    ctls
    have hna : s.mem.nalloc = l.count := by rw [hs]
    have hlt : l.i < s.mem.nalloc := by omega
    refine Ends.mono (n := (m + 40 * d + 10 + 2 + 20 + 3) + 1) ?_ (by omega)
    refine LEnds.go (s' := { s with mem := s.mem.setLink l.i (R.K.hnd none) }) (l' := l) hg ?_ (by simp [setIndexNull, hlt]) rfl ?_
    · refine .step rfl (.step rfl (.step rfl ?_))
      refine deallocU_ends (c := l.i) hg rfl fun fl' => ?_
      refine .step rfl (.step rfl ?_)
      refine ih (l := { l with i := l.i + 1, fl := fl' }) (by simp; omega) (arrayCtor_pass hf _ hs) ?_
      exact fun l' a b => hdone l' a b
    · intro ch h
      cases ch <;> first | rfl | exact absurd rfl h

/-- What is left in memory by a constructor of a freelist for `n` nodes that throws: `mem` before, `mem'` after. -/
def CtorThrew (R : Rep) (n : Nat) (mem mem' : SMem R.K α) : Prop :=
  if R.fixed then mem' = mem else ∃ j, j < n ∧ mem' = SMem.initial R j

/-- The constructors of the freelists. -/
theorem freelistCtor_ends (hf : (R.fixed = true → l.count ≤ 65535) → R.Faithful) (hg : al .go) {w v} {x : X} (hl : R.fixed = false → l.count ≤ R.limit)
    (hdone : (R.fixed = true → l.count ≤ 65535) → ∀ l', l'.count = l.count → LEnds al t Q m f ⟨SMem.initial R l.count, [], x⟩ l' k)
    (hthrow : (al .throw ∨ R.fixed = true ∧ 65535 < l.count) → ∀ mem' l', CtorThrew R l.count (Life.raw (α := α) R w v x).mem mem' → l'.count = l.count →
      LEnds al t Q m f ⟨mem', [], x⟩ l' (toHandler k)) :
    LEnds al t Q (m + 40 * l.count + 40) f (Life.raw R w v x) l (.stm freelistCtor :: k) := by
  unfold freelistCtor
  cases hfx : R.fixed with
  | true =>
    simp only [if_true]
    ctls
    refine Ends.mono (n := (m + 1 + 40 * l.count + 10 + 6) + 1) ?_ (by omega)
    have hthrow' : (al .throw ∨ 65535 < l.count) → LEnds al t Q m f (Life.raw R w v x) l (toHandler k) := fun h =>
      hthrow (by simpa [hfx] using h) _ l (by rw [CtorThrew, if_pos hfx]; rfl) rfl
    refine .acc ⟨.go, ?_⟩ ?_ ?_ ?_
    · by_cases hc : l.count > 65535
      · exact ⟨_, hg, rfl, rfl, by simp only [storageCtor, hc, if_true]; rfl⟩
      · exact ⟨_, hg, rfl, rfl, by simp only [storageCtor, hc, if_false]; rfl⟩
    · intro ch s' l' _ _ h2
      cases ch <;> simp [storageCtor] at h2
      split at h2 <;> simp at h2
    · intro ch s' l' w ha _ _ h2
      cases ch <;> simp [storageCtor] at h2
      · split at h2
        · rename_i hc
          simp at h2
          obtain ⟨rfl, rfl, rfl⟩ := h2
          exact (hthrow' (.inr hc)).mono (by omega)
        · simp at h2
          obtain ⟨rfl, rfl, rfl⟩ := h2
          refine .step rfl (assign_ends hg (.step rfl (.step rfl (.step rfl ?_))))
          refine Ends.mono (n := m + 1 + 40 * l.count + 10) ?_ (by omega)
          refine arrayCtorLoop_ends (d := l.count) (hf fun _ => by omega) hg ?_ ?_ ?_
          · exact Nat.zero_add _
          · rfl
          exact fun l' _ h3 => .step rfl (hdone (fun _ => by omega) l' h3)
      · obtain ⟨rfl, rfl, rfl⟩ := h2
        exact (hthrow' (.inl ha)).mono (by omega)
    · intro ch s' l' w g _ _ h3 _ h2
      cases ch <;> simp [isSpur] at h3
      simp [storageCtor] at h2
  | false =>
    simp only [Bool.false_eq_true, if_false]
    refine Ends.mono (n := (m + 1 + 40 * l.count + 10 + 10)) ?_ (by omega)
    refine .step rfl (.step rfl (assign_ends hg (.step rfl (.step rfl (.step rfl ?_)))))
    refine Ends.mono (n := m + 1 + 40 * l.count + 10) ?_ (by omega)
    refine poolCtorLoop_ends (d := l.count) hg ?_ ?_ ?_ ?_ ?_
    · exact hl hfx
    · exact Nat.zero_add _
    · rfl
    · exact fun l' _ h3 => .step rfl (hdone (by simp [hfx]) l' h3)
    intro ha j l' h2 h3
    refine (hthrow (.inl ha) _ l' ?_ h3).mono (by omega)
    rw [CtorThrew, if_neg (by simp [hfx])]
    exact ⟨j, h2, rfl⟩

/-- The loop of `~freelist_stack`: `F` are the nodes still in the freelist. -/
theorem poolDtorLoop_ends (hg : al .go) {F : List Nat} {p : R.K.H} (hF : Linked R s.mem p F) (hp : R.K.ptr l.current = p) (hn : (F ++ s.freed).Nodup)
    (hlt : ∀ c ∈ F, c < s.mem.nalloc)
    (hdone : ∀ l', LEnds al t Q m f { s with freed := F.reverse ++ s.freed } l' k) :
    LEnds al t Q (m + 20 * F.length + 10) f s l (.stm poolDtorLoop :: .loop poolDtorLoop :: k) := by
  induction F generalizing s l p with
  | nil =>
    cases hF with
    | nil h1 =>
      subst hp
      ctls
      exact (hdone l).mono (by omega)
  | cons c F ih =>
    cases hF with
    | cons h1 h2 =>
      subst hp
      have h3 : c ∉ s.freed := by
        intro h; simp [h] at hn
      have h4 : ¬ (c ∈ s.freed ∨ s.mem.nalloc ≤ c) := by
        have := hlt c (by simp)
        rintro (h | h)
        · exact h3 h
        · omega
      refine Ends.mono (n := (m + 20 * F.length + 10) + 16) ?_ (by simp only [List.length_cons]; omega)
      ctls
      refine LEnds.go (s' := s) (l' := { l with current_ptr := some c, current := s.mem.next c }) hg ?_ (by simp [nextCurrent, h1, h4]) rfl ?_
      · refine LEnds.go (s' := { s with freed := c :: s.freed }) (l' := { l with current_ptr := some c, current := s.mem.next c }) hg ?_
          (by simp [osDeallocate, h4]) rfl ?_
        · refine .step rfl ?_
          refine (ih (s := { s with freed := c :: s.freed }) (l := { l with current_ptr := some c, current := s.mem.next c }) h2 rfl ?_ ?_ ?_).mono ?_
          · simpa using (List.perm_middle.nodup_iff).2 hn
          · exact fun d hd => hlt d (by simp [hd])
          · intro l'; simpa using hdone l'
          · omega
        · intro ch h
          cases ch <;> first | rfl | exact absurd rfl h
      · intro ch h
        cases ch <;> first | exact absurd rfl h | simp [nextCurrent, h1]

/-- What the destructors of the freelists give back: the nodes in the freelist; the array as a whole. -/
def givenBack (R : Rep) (m : SMem R.K α) (F : List Nat) : List Nat := if R.fixed then List.range m.nalloc else F

/-- The destructors of the freelists: `F` are the nodes in the freelist. -/
theorem freelistDtor_ends (hg : al .go) {F : List Nat} (hF : Linked R s.mem (R.K.ptr s.mem.pool) F) (hn : F.Nodup) (hlt : ∀ c ∈ F, c < s.mem.nalloc)
    (hs : s.freed = []) (hdone : ∀ l', LEnds al t Q m f { s with freed := (givenBack R s.mem F).reverse } l' k) :
    LEnds al t Q (m + 20 * F.length + 20) f s l (.stm freelistDtor :: k) := by
  unfold freelistDtor
  unfold givenBack at hdone
  cases hfx : R.fixed with
  | true =>
    simp only [hfx, if_true] at hdone ⊢
    refine .step rfl (Ends.mono (n := m + 2) ?_ (by omega))
    refine LEnds.go (s' := { s with freed := (List.range s.mem.nalloc).reverse }) (l' := l) hg ?_ (by simp [storageDtor, hs]) rfl ?_
    · exact .step rfl (hdone l)
    · intro ch h
      cases ch <;> first | rfl | exact absurd rfl h
  | false =>
    simp only [hfx, Bool.false_eq_true, if_false] at hdone ⊢
    refine .step rfl (.step rfl (LEnds.go hg (.step rfl ?_)))
    refine Ends.mono (n := (m + 1) + 20 * F.length + 10) ?_ (by omega)
    refine poolDtorLoop_ends hg hF rfl ?_ hlt ?_
    · simpa [hs] using hn
    · intro l'
      refine .step rfl ?_
      simpa [hs] using hdone l'

/-- The destructor of the member `pool`, as a program. -/
def poolDtorProgram (R : Rep) (α X : Type) : Program (Life R.K α X) (LifeVars R.K) (SChoice R.K LifeOp α) Unit Unit where
  body _ _ := some (LifeVars.init R.zero, freelistDtor)
  result _ := ()
  env _ _ _ := none

/-- **C59 (destructors of the freelists).** Take a container none of whose nodes has been given back, whose freelist is linked properly. `~freelist_stack`, and
`~fixed_size_freelist`, returns, without undefined behaviour, after a number of steps proportional to the length of the freelist; the nodes given back are those in
the freelist (the array as a whole), each once; nothing else changes. -/
theorem freelist_destructor_total {s : Life R.K α X} {F : List Nat} (hF : Linked R s.mem (R.K.ptr s.mem.pool) F) (hn : F.Nodup)
    (hlt : ∀ c ∈ F, c < s.mem.nalloc) (hs : s.freed = []) (t : Nat) :
    Total (poolDtorProgram R α X) (fun _ => True) isSpur t s () (fun _ => 20 * F.length + 21)
      fun s' _ => s'.freed = (givenBack R s.mem F).reverse ∧ s'.mem = s.mem ∧ s'.x = s.x := by
  refine Total.of_ends (N := fun _ => 20 * F.length + 20) (fun _ _ _ => rfl) rfl fun f => ?_
  refine Ends.mono (n := 0 + 20 * F.length + 20) ?_ (by omega)
  exact freelistDtor_ends trivial hF hn hlt hs fun l' => .here ⟨rfl, rfl, rfl, rfl⟩

/-! ### Lists of nodes whose links are handles -/

/-- `Linked`, all handles being the usual ones of nodes below the limit. -/
inductive Chained (R : Rep) (m : SMem R.K α) : R.K.H → List Nat → Prop where
  | nil {p} : p = R.K.hnd none → Chained R m p []
  | cons {p n l} : p = R.K.hnd (some n) → n < R.limit → Chained R m (R.K.ptr (m.next n)) l → Chained R m p (n :: l)

theorem Chained.hnd {m : SMem R.K α} {p L} (h : Chained R m p L) : ∃ q, p = R.K.hnd q ∧ okPtr (· < R.limit) q := by
  cases h with
  | nil h => exact ⟨_, h, okPtr.none⟩
  | cons h h1 => exact ⟨_, h, by rintro _ ⟨⟩; exact h1⟩

theorem Chained.linked (hf : R.Faithful) {m : SMem R.K α} {p L} (h : Chained R m p L) : Linked R m p L := by
  induction h with
  | nil h => exact .nil (by rw [h]; exact hf.words.node_hnd _ (by simp))
  | cons h h1 _ ih => exact .cons (by rw [h]; exact hf.words.node_hnd _ (by rintro _ ⟨⟩; exact h1)) ih

theorem Chained.congr {m m' : SMem R.K α} {p L} (h : Chained R m p L) (he : ∀ c ∈ L, R.K.ptr (m'.next c) = R.K.ptr (m.next c)) : Chained R m' p L := by
  induction h with
  | nil h => exact .nil h
  | cons h h1 _ ih => exact .cons h h1 (by rw [he _ (by simp)]; exact ih fun c hc => he c (by simp [hc]))

theorem Chained.of_rel (hf : R.Faithful) {h : Heap α} {m : SMem R.K α} (hm : MemRel R h m) {p : Option Nat} {L : List Nat} (hc : Chain h.next p L)
    (hp : okPtr (· < h.nalloc) p) : Chained R m (R.K.hnd p) L := by
  induction L generalizing p with
  | nil => cases hc; exact .nil rfl
  | cons n L ih =>
    obtain ⟨rfl, hc⟩ := hc
    have hn := hp n rfl
    refine .cons rfl (Nat.lt_of_lt_of_le hn hm.limit) ?_
    rw [hm.next n hn, hf.ptr ((hm.okNext n hn).mono hm.limit)]
    exact ih hc (hm.okNext n hn).1

/-- `deallocate_impl_unsafe` puts the node at the front of the freelist. -/
theorem Chained.dealloc (hf : R.Faithful) {m : SMem R.K α} {F : List Nat} {c : Nat} (h : Chained R m (R.K.ptr m.pool) F) (hc : c < R.limit) (hn : c ∉ F) :
    Chained R (m.deallocUnsafe R c) (R.K.ptr (m.deallocUnsafe R c).pool) (c :: F) := by
  have h1 : ∀ n, some c = some n → n < R.limit := by rintro _ ⟨⟩; exact hc
  refine .cons (hf.words.ptr_pack _ _ h1) hc ?_
  obtain ⟨q, hq, hq'⟩ := h.hnd
  have h2 : R.K.ptr ((m.deallocUnsafe R c).next c) = R.K.ptr m.pool := by
    simp only [SMem.deallocUnsafe, SMem.setLink, upd_self, hq]
    exact hf.words.ptr_pack _ _ hq'
  rw [h2]
  refine h.congr fun d hd => ?_
  have : d ≠ c := by rintro rfl; exact hn hd
  simp [SMem.deallocUnsafe, SMem.setLink, upd_ne _ _ _ this]

theorem Chained.initial (hf : R.Faithful) {n : Nat} (hn : n ≤ R.limit) :
    Chained R (SMem.initial R n : SMem R.K α) (R.K.ptr (SMem.initial R n : SMem R.K α).pool) (List.range n).reverse := by
  induction n with
  | zero => exact .nil (hf.words.ptr_pack none _ (by simp))
  | succ n ih =>
    have h1 : Chained R ((SMem.initial R n : SMem R.K α).malloc R) (R.K.ptr ((SMem.initial R n : SMem R.K α).malloc R).pool) (List.range n).reverse := by
      refine (ih (by omega)).congr fun c hc => ?_
      have : c ≠ n := by simp at hc; omega
      simp [SMem.malloc, SMem.initial_nalloc, upd_ne _ _ _ this]
    have h2 := h1.dealloc hf (c := n) (by omega) (by simp)
    rw [List.range_succ, List.reverse_append]
    simp only [SMem.initial, SMem.initial_nalloc]
    exact h2

end Verif.Text
