import Verif.Text
import Verif.WordMem

/-!
# `detail/freelist.hpp` as structured programs (C52)

The functions of `freelist_stack` (freelist.hpp:36-256) and `fixed_size_freelist` (freelist.hpp:395-611) used by the thread-safe operations of
stack and queue, line by line. The two classes differ in how an exhausted freelist is handled (freelist.hpp:178-185, 549-550); for handles
see `Words`.
-/

namespace Verif.Text
open Lin

variable {S L O α : Type} {R : Rep}

/-- Local variables of the functions of the freelists. -/
structure PoolVars (K : Words) where
  old_pool : SSnap K
  new_pool_ptr : K.H
  new_pool : K.W
  /-- result of a compare-exchange -/
  cas : Bool
  /-- result of `allocate` and `construct` -/
  node : Option Nat
  /-- argument of `deallocate` and `destruct` -/
  n : Option Nat

/-- Where the shared state of a container contains nodes and freelist, and its local variables those of the freelist. -/
structure Port (R : Rep) (α S L : Type) where
  mem : S → SMem R.K α
  setMem : S → SMem R.K α → S
  fl : L → PoolVars R.K
  setFl : L → PoolVars R.K → L
  mem_set : ∀ s m, mem (setMem s m) = m
  fl_set : ∀ l x, fl (setFl l x) = x
  set_set : ∀ l x y, setFl (setFl l x) y = setFl l y
  set_fl : ∀ l, setFl l (fl l) = l
  /-- the words through which the freelist links its nodes are also accessed atomically -/
  atomicNext : Bool := false

/-- The choices that are spurious failures of a compare-exchange. -/
def isSpur {K : Words} : SChoice K O α → Bool
  | .spur => true
  | _ => false

abbrev PStm (R : Rep) (α S L O : Type) := Stm S L (SChoice R.K O α)

/-- An assignment. -/
def Port.set (P : Port R α S L) (f : PoolVars R.K → PoolVars R.K) : PStm R α S L O := .set fun l => P.setFl l (f (P.fl l))

/-- An access to nodes and freelist. -/
def Port.acc (P : Port R α S L)
    (f : SMem R.K α → PoolVars R.K → SChoice R.K O α → Option (SMem R.K α × PoolVars R.K × Flow))
    (ok : SMem R.K α → PoolVars R.K → Bool := fun _ _ => true) (kind : L → Kind L (SChoice R.K O α) := fun _ => .plain []) :
    Access S L (SChoice R.K O α) where
  run _ s l ch := (f (P.mem s) (P.fl l) ch).map fun x => (P.setMem s x.1, P.setFl l x.2.1, x.2.2)
  ok s l _ := ok (P.mem s) (P.fl l)
  kind := kind

/-- `old_pool = pool_.load( memory_order_consume )`. -/
def Port.loadPool (P : Port R α S L) : Access S L (SChoice R.K O α) :=
  P.acc (kind := fun _ => .load .pool .consume) fun m v ch =>
    match ch with
    | .go => some (m, { v with old_pool := m.poolSnap }, .next)
    | _ => none

/-- `pool_.compare_exchange_weak( old_pool, new_pool )`: `new_pool` is stored if `pool_` equals `old_pool`; otherwise, or spuriously, `pool_` is
read into `old_pool`. `removes`: the compare-exchange of `allocate_impl`, which increments the tag: the ghost version increases, and the tag is
assumed not to have wrapped completely since `old_pool` was read. -/
def Port.casPool (P : Port R α S L) (removes : Bool) : Access S L (SChoice R.K O α) :=
  P.acc (fun m v ch =>
    match ch with
    | .go =>
      if m.pool = v.old_pool.v then
        some ({ m with pool := v.new_pool, poolVer := if removes then m.poolVer + 1 else m.poolVer }, { v with cas := true }, .next)
      else some (m, { v with cas := false, old_pool := m.poolSnap }, .next)
    | .spur => some (m, { v with cas := false, old_pool := m.poolSnap }, .next)
    | _ => none) (fun m v => decide (removes = true → m.poolVer < v.old_pool.ver + R.M)) (fun _ => .cas .pool fun l => (P.fl l).cas)

/-- `old_pool->next.get_ptr()` (freelist.hpp:187), `next_index->get_index()` (freelist.hpp:553-555). If another thread has taken the node in the
meantime this read races, and returns anything. -/
def Port.readLink (P : Port R α S L) : Access S L (SChoice R.K O α) :=
  P.acc (kind := fun l =>
    match R.K.node (R.K.ptr (P.fl l).old_pool.v) with
    | none => .plain []
    | some n => .spec n fun
      | .racy x => some (P.setFl l { P.fl l with new_pool_ptr := x })
      | _ => none) fun m v ch =>
    match R.K.node (R.K.ptr v.old_pool.v) with
    | none => some (m, v, .ub)
    | some n =>
      match ch with
      | .go => some (m, { v with new_pool_ptr := R.K.ptr (m.next n) }, .next)
      | .racy x => if m.poolVer = v.old_pool.ver then none else some (m, { v with new_pool_ptr := x }, .next)
      | _ => none

/-- `T* ptr = Alloc::allocate( 1 ); std::memset( (void*)ptr, 0, sizeof( T ) ); return ptr` (freelist.hpp:180-182, 71-72). -/
def Port.osAllocate (P : Port R α S L) (store : PoolVars R.K → Option Nat → PoolVars R.K) : Access S L (SChoice R.K O α) :=
  P.acc fun m v ch =>
    match ch with
    | .go => if m.nalloc < R.limit then some (m.malloc R, store v (some m.nalloc), .next) else none
    | .throw => some (m, v, .throws)
    | _ => none

/-- `new_pool->next.set_ptr( old_pool.get_ptr() )` (freelist.hpp:238), `new_pool_node->next.set_index( … )` (freelist.hpp:595). -/
def Port.setLink (P : Port R α S L) : Access S L (SChoice R.K O α) :=
  P.acc (kind := fun l =>
    match P.atomicNext, (P.fl l).n with
    | true, some n => .store n false [n]
    | _, o => .plain o.toList) fun m v ch =>
    match v.n, ch with
    | none, _ => some (m, v, .ub)
    | some n, .go => some (m.setLink n (R.K.ptr v.old_pool.v), v, .next)
    | _, _ => none

/-- `if ( !old_pool.get_ptr() ) { … }` (freelist.hpp:178-185), `if ( index == null_handle() ) return index` (freelist.hpp:549-550). -/
def Port.exhausted (P : Port R α S L) (bounded : Bool) : PStm R α S L O :=
  .ite (fun l => (R.K.node (R.K.ptr (P.fl l).old_pool.v)).isNone)
    (if R.fixed || bounded then
      P.set (fun v => { v with node := none }) ;;
      .ret
    else
      .acc (P.osAllocate fun v n => { v with node := n }) ;;
      .ret)
    .skip

/-- freelist.hpp:187-194, 552-558. -/
def Port.take (P : Port R α S L) : PStm R α S L O :=
  .acc P.readLink ;;
  P.set (fun v => { v with new_pool := R.K.pack v.new_pool_ptr (R.K.next (R.K.tag v.old_pool.v)) }) ;;
  .acc (P.casPool true) ;;
  .ite (fun l => (P.fl l).cas)
    (P.set (fun v => { v with node := R.K.node (R.K.ptr v.old_pool.v) }) ;;
     .ret)
    .skip

/-- `allocate_impl< Bounded >()` (freelist.hpp:173-195), `allocate_impl()` (freelist.hpp:543-560). -/
def Port.allocate (P : Port R α S L) (bounded : Bool) : PStm R α S L O :=
  .acc P.loadPool ;;
  .forever (P.exhausted bounded ;; P.take)

/-- The loop of `deallocate_impl` (freelist.hpp:236-242, 593-599). -/
def Port.give (P : Port R α S L) : PStm R α S L O :=
  P.set (fun v => { v with new_pool := R.K.pack (R.K.hnd v.n) (R.K.tag v.old_pool.v) }) ;;
  .acc P.setLink ;;
  .acc (P.casPool false) ;;
  .ite (fun l => (P.fl l).cas) .ret .skip

/-- `deallocate_impl( n )` (freelist.hpp:230-243, 588-600). -/
def Port.deallocate (P : Port R α S L) : PStm R α S L O :=
  .acc P.loadPool ;;
  .forever P.give

/-- `n->~T()` (freelist.hpp:108, 115, 480, 487). -/
def Port.dtor (P : Port R α S L) : Access S L (SChoice R.K O α) :=
  P.acc (kind := fun l => .plain (P.fl l).n.toList) fun m v ch =>
    match v.n, ch with
    | none, _ => some (m, v, .ub)
    | some n, .go => if (m.data n).isSome then some (m.setData n none, v, .next) else some (m, v, .ub)
    | _, _ => none

/-- `destruct< true >( n )` (freelist.hpp:104-117, 474-489). -/
def Port.destruct (P : Port R α S L) : PStm R α S L O :=
  .acc P.dtor ;;
  .fn P.deallocate

/-- `new ( node ) T( arg )` (freelist.hpp:91, 100, 458, 470), as far as the copy constructor of the payload is concerned. -/
def Port.ctor (P : Port R α S L) (arg : L → Option α) : Access S L (SChoice R.K O α) where
  run _ s l ch :=
    match (P.fl l).node, arg l, ch with
    | some n, some v, .go =>
      if ((P.mem s).data n).isSome then some (s, l, .ub) else some (P.setMem s ((P.mem s).setData n (some v)), l, .next)
    | some _, some _, .throw => some (s, l, .throws)
    | some _, some _, _ => none
    | _, _, _ => some (s, l, .ub)
  kind l := .plain (P.fl l).node.toList

/-! ### What the programs do -/

variable {P : Port R α S L}

abbrev PRest (R : Rep) (α S L O : Type) := Rest S L (SChoice R.K O α)

/-- Places in `allocate`. -/
inductive AllocAt (P : Port R α S L) (b : Bool) (ctx : PRest R α S L O) : L → PRest R α S L O → SAPC R.K → Prop where
  | load {l} : AllocAt P b ctx l (.stm (.acc P.loadPool) :: .stm (.forever (P.exhausted b ;; P.take)) :: .fn :: ctx) .load
  | os {l o} : (P.fl l).old_pool = o → R.K.node (R.K.ptr o.v) = none → (R.fixed || b) = false →
      AllocAt P b ctx l (.stm (.acc (P.osAllocate fun v n => { v with node := n })) :: .stm .ret :: .stm P.take ::
        .loop (P.exhausted b ;; P.take) :: .fn :: ctx) (.test o)
  | read {l o n} : (P.fl l).old_pool = o → R.K.node (R.K.ptr o.v) = some n →
      AllocAt P b ctx l (.stm (.acc P.readLink) ::
        .stm (P.set (fun v => { v with new_pool := R.K.pack v.new_pool_ptr (R.K.next (R.K.tag v.old_pool.v)) }) ;;
          .acc (P.casPool true) ;;
          .ite (fun l => (P.fl l).cas) (P.set (fun v => { v with node := R.K.node (R.K.ptr v.old_pool.v) }) ;; .ret) .skip) ::
        .loop (P.exhausted b ;; P.take) :: .fn :: ctx) (.test o)
  | cas {l o x n} : (P.fl l).old_pool = o → R.K.node (R.K.ptr o.v) = some n →
      (P.fl l).new_pool = R.K.pack x (R.K.next (R.K.tag o.v)) →
      AllocAt P b ctx l (.stm (.acc (P.casPool true)) ::
        .stm (.ite (fun l => (P.fl l).cas) (P.set (fun v => { v with node := R.K.node (R.K.ptr v.old_pool.v) }) ;; .ret) .skip) ::
        .loop (P.exhausted b ;; P.take) :: .fn :: ctx) (.cas o x)

theorem AllocAt.head {b ctx l k a} (h : AllocAt (O := O) P b ctx l k a) : ctl l k = none := by cases h <;> rfl

theorem AllocAt.ne {b ctx l k a} (h : AllocAt (O := O) P b ctx l k a) : k ≠ [] := by cases h <;> simp

/-- Local variables that differ in those of the freelist only. -/
def Port.Same (P : Port R α S L) (l l' : L) : Prop := ∃ x, l' = P.setFl l x

theorem Port.Same.refl (l : L) : P.Same l l := ⟨P.fl l, (P.set_fl l).symm⟩

theorem Port.Same.trans {l l' l'' : L} (h : P.Same l l') (h' : P.Same l' l'') : P.Same l l'' := by
  obtain ⟨x, rfl⟩ := h
  obtain ⟨y, rfl⟩ := h'
  exact ⟨y, P.set_set ..⟩

/-- From the head of the loop of `allocate`. -/
theorem alloc_loop {b : Bool} {ctx : PRest R α S L O} (l : L) :
    ∃ i l' k', i ≤ 5 ∧ P.Same l l' ∧ Reach i l (.stm (P.exhausted b ;; P.take) :: .loop (P.exhausted b ;; P.take) :: .fn :: ctx) l' k' ∧
      (AllocAt P b ctx l' k' (.test (P.fl l).old_pool) ∨
        (R.K.node (R.K.ptr (P.fl l).old_pool.v) = none ∧ (R.fixed || b) = true ∧ k' = ctx ∧ (P.fl l').node = none)) := by
  rcases hn : R.K.node (R.K.ptr (P.fl l).old_pool.v) with _ | n
  · rcases hb : (R.fixed || b) with _ | _
    · refine ⟨3, l, _, by omega, .refl l, .step rfl (.tt (by simp [hn]) ?_), .inl (.os rfl hn hb)⟩
      simp only [hb, Bool.false_eq_true, if_false]
      exact .step rfl .refl
    · refine ⟨5, P.setFl l { P.fl l with node := none }, ctx, by omega, ⟨_, rfl⟩, .step rfl (.tt (by simp [hn]) ?_), .inr ⟨rfl, rfl, rfl, ?_⟩⟩
      · simp only [hb, if_true]
        exact .step rfl (.step rfl (.step rfl .refl))
      · rw [P.fl_set]
  · exact ⟨4, l, _, by omega, .refl l, .step rfl (.ff (by simp [hn]) (.step rfl (.step rfl .refl))), .inl (.read rfl hn)⟩

/-- What follows an access of `allocate`: `r` is the result of the machine. -/
def AllocOut (P : Port R α S L) (b : Bool) (ctx : PRest R α S L O) (l : L) (k : PRest R α S L O) (f : Flow) : SARes R.K → Prop
  | .more a => f = .next ∧ ∃ i l' k', i ≤ 10 ∧ P.Same l l' ∧ Reach i l k l' k' ∧
      (AllocAt P b ctx l' k' a ∨
        (k' = ctx ∧ (P.fl l').node = none ∧ ∃ o, a = .test o ∧ R.K.node (R.K.ptr o.v) = none ∧ (R.fixed || b) = true))
  | .got n => f = .next ∧ ∃ i l', i ≤ 10 ∧ P.Same l l' ∧ Reach i l k l' ctx ∧ (P.fl l').node = some n
  | .null => False
  | .badAlloc => f = .throws ∧ toHandler k = toHandler ctx

theorem AllocOut.loop {b : Bool} {ctx : PRest R α S L O} {l l₁ : L} {k} {o : SSnap R.K} (hs : P.Same l l₁) (ho : (P.fl l₁).old_pool = o)
    {j : Nat} (hr : Reach j l k l₁ (.stm (P.exhausted b ;; P.take) :: .loop (P.exhausted b ;; P.take) :: .fn :: ctx))
    (hj : j ≤ 5 := by decide) : AllocOut P b ctx l k .next (.more (.test o)) := by
  obtain ⟨i, l', k', hi, h1, h2, h3⟩ := alloc_loop (P := P) (b := b) (ctx := ctx) l₁
  refine ⟨rfl, j + i, l', k', by omega, hs.trans h1, hr.trans h2, ?_⟩
  rcases h3 with h3 | ⟨h3, h4, h5, h6⟩
  · exact .inl (ho ▸ h3)
  · exact .inr ⟨h5, h6, o, rfl, ho ▸ h3, h4⟩

/-- An access of `allocate` is a step of `saStep`. -/
theorem alloc_access {b : Bool} {ctx : PRest R α S L O} {l k a ac s ch s' l' f} (h : AllocAt P b ctx l (.stm (.acc ac) :: k) a)
    (hr : ac.run t s l ch = some (s', l', f)) :
    ∃ m r, saStep R b (P.mem s) a ch = some (m, r) ∧ (ac.ok s l ch = true → saFresh R (P.mem s) a) ∧ s' = P.setMem s m ∧ P.Same l l' ∧ (∀ o, ch ≠ .call o) ∧
      AllocOut P b ctx l' k f r := by
  cases h with
  | load =>
    simp only [Port.loadPool, Port.acc] at hr
    cases ch <;> simp at hr
    obtain ⟨rfl, rfl, rfl⟩ := hr
    exact ⟨_, _, rfl, fun _ => trivial, rfl, ⟨_, rfl⟩, by simp, AllocOut.loop (.refl _) (by rw [P.fl_set]) (.step rfl .refl)⟩
  | os ho hn hb =>
    subst ho
    simp only [Port.osAllocate, Port.acc] at hr
    cases ch <;> simp at hr
    · obtain ⟨hl, rfl, rfl, rfl⟩ := hr
      refine ⟨_, .got (P.mem s).nalloc, ?_, fun _ => trivial, rfl, ⟨_, rfl⟩, by simp, rfl, 1, _, by omega, .refl _, .step rfl .refl, by rw [P.fl_set]⟩
      simp [saStep, hn, hb, hl]
    · obtain ⟨rfl, rfl, rfl⟩ := hr
      refine ⟨P.mem s, .badAlloc, ?_, fun _ => trivial, rfl, ⟨_, rfl⟩, by simp, rfl, rfl⟩
      simp [saStep, hn, hb]
  | @read o n ho hn =>
    subst ho
    simp only [Port.readLink, Port.acc, hn] at hr
    cases ch <;> simp at hr
    · obtain ⟨rfl, rfl, rfl⟩ := hr
      refine ⟨P.mem s, .more (.cas (P.fl l).old_pool (R.K.ptr ((P.mem s).next n))), by simp [saStep, hn], fun _ => trivial, rfl, ⟨_, rfl⟩, by simp, rfl, 3, _, _,
        by omega, ⟨_, rfl⟩, .step rfl (.step rfl (.step rfl .refl)), .inl (.cas ?_ hn ?_)⟩ <;> simp only [P.fl_set, P.set_set]
    · obtain ⟨hv, rfl, rfl, rfl⟩ := hr
      rename_i x
      refine ⟨P.mem s, .more (.cas (P.fl l).old_pool x), by simp [saStep, hn, hv], fun _ => trivial, rfl, ⟨_, rfl⟩, by simp, rfl, 3, _, _,
        by omega, ⟨_, rfl⟩, .step rfl (.step rfl (.step rfl .refl)), .inl (.cas ?_ hn ?_)⟩ <;> simp only [P.fl_set, P.set_set]
  | @cas o x n ho hn hp =>
    subst ho
    have hf : (P.casPool (O := O) true).ok s l ch = true → saFresh R (P.mem s) (.cas (P.fl l).old_pool x) := fun h => of_decide_eq_true h rfl
    simp only [Port.casPool, Port.acc] at hr
    cases ch <;> simp at hr
    · by_cases he : (P.mem s).pool = (P.fl l).old_pool.v
      · simp [he] at hr
        obtain ⟨rfl, rfl, rfl⟩ := hr
        refine ⟨_, .got n, by simp [saStep, he, hn, hp], hf, rfl, ⟨_, rfl⟩, by simp, rfl, 4, _, by omega, ⟨_, rfl⟩,
          .tt (by rw [P.fl_set]) (.step rfl (.step rfl (.step rfl .refl))), ?_⟩
        simp only [P.fl_set, hn]
      · simp [he] at hr
        obtain ⟨rfl, rfl, rfl⟩ := hr
        exact ⟨P.mem s, .more (.test (P.mem s).poolSnap), by simp [saStep, he], hf, rfl, ⟨_, rfl⟩, by simp,
          AllocOut.loop (.refl _) (by rw [P.fl_set]) (.ff (by rw [P.fl_set]) (.step rfl (.step rfl .refl)))⟩
    · obtain ⟨rfl, rfl, rfl⟩ := hr
      exact ⟨P.mem s, .more (.test (P.mem s).poolSnap), by simp [saStep], hf, rfl, ⟨_, rfl⟩, by simp,
        AllocOut.loop (.refl _) (by rw [P.fl_set]) (.ff (by rw [P.fl_set]) (.step rfl (.step rfl .refl)))⟩

/-- Places in `deallocate( n )`. -/
inductive DeallocAt (P : Port R α S L) (n : Nat) (ctx : PRest R α S L O) : L → PRest R α S L O → SDPC R.K → Prop where
  | load {l} : (P.fl l).n = some n → DeallocAt P n ctx l (.stm (.acc P.loadPool) :: .stm (.forever P.give) :: .fn :: ctx) .load
  | set {l o} : (P.fl l).n = some n → (P.fl l).old_pool = o → (P.fl l).new_pool = R.K.pack (R.K.hnd (some n)) (R.K.tag o.v) →
      DeallocAt P n ctx l (.stm (.acc P.setLink) ::
        .stm (.acc (P.casPool false) ;; .ite (fun l => (P.fl l).cas) .ret .skip) :: .loop P.give :: .fn :: ctx) (.set o)
  | cas {l o} : (P.fl l).n = some n → (P.fl l).old_pool = o → (P.fl l).new_pool = R.K.pack (R.K.hnd (some n)) (R.K.tag o.v) →
      DeallocAt P n ctx l (.stm (.acc (P.casPool false)) ::
        .stm (.ite (fun l => (P.fl l).cas) .ret .skip) :: .loop P.give :: .fn :: ctx) (.cas o)

theorem DeallocAt.head {n ctx l k d} (h : DeallocAt (O := O) P n ctx l k d) : ctl l k = none := by cases h <;> rfl

theorem DeallocAt.ne {n ctx l k d} (h : DeallocAt (O := O) P n ctx l k d) : k ≠ [] := by cases h <;> simp

theorem dealloc_start {n ctx l} (h : (P.fl l).n = some n) : ∃ k, Reach 2 l (.stm (.fn P.deallocate) :: ctx) l k ∧
    DeallocAt (O := O) P n ctx l k .load :=
  ⟨_, .step rfl (.step rfl .refl), .load h⟩

theorem alloc_start {b ctx} {l : L} : ∃ k, Reach 2 l (.stm (.fn (P.allocate b)) :: ctx) l k ∧ AllocAt (O := O) P b ctx l k .load :=
  ⟨_, .step rfl (.step rfl .refl), .load⟩

/-- An access of `deallocate` is a step of `sdStep`. -/
theorem dealloc_access {n : Nat} {ctx : PRest R α S L O} {l k d ac s ch s' l' f} (h : DeallocAt P n ctx l (.stm (.acc ac) :: k) d)
    (hr : ac.run t s l ch = some (s', l', f)) :
    ∃ m r, sdStep R (P.mem s) n d ch = some (m, r) ∧ s' = P.setMem s m ∧ P.Same l l' ∧ (∀ o, ch ≠ .call o) ∧ f = .next ∧
      match r with
      | some d' => ∃ i l'' k', i ≤ 10 ∧ P.Same l' l'' ∧ Reach i l' k l'' k' ∧ DeallocAt P n ctx l'' k' d'
      | none => Reach 2 l' k l' ctx := by
  cases h with
  | load hn =>
    simp only [Port.loadPool, Port.acc] at hr
    cases ch <;> simp at hr
    obtain ⟨rfl, rfl, rfl⟩ := hr
    exact ⟨P.mem s, some (.set (P.mem s).poolSnap), rfl, rfl, ⟨_, rfl⟩, by simp, rfl, 4, _, _, by omega, ⟨_, rfl⟩, .step rfl (.step rfl (.step rfl (.step rfl .refl))),
      .set (by simp only [P.fl_set]; exact hn) (by simp only [P.fl_set]) (by simp only [P.fl_set, hn])⟩
  | set hn ho hp =>
    subst ho
    simp only [Port.setLink, Port.acc, hn] at hr
    cases ch <;> simp at hr
    obtain ⟨rfl, rfl, rfl⟩ := hr
    refine ⟨_, some (.cas (P.fl l).old_pool), rfl, rfl, ⟨_, rfl⟩, by simp, rfl, 1, l, _, by omega, ?_, ?_, .cas hn rfl hp⟩
    · exact ⟨P.fl l, by rw [P.set_set, P.set_fl]⟩
    · rw [P.set_fl]; exact .step rfl .refl
  | cas hn ho hp =>
    subst ho
    simp only [Port.casPool, Port.acc] at hr
    have again : ∀ {l₁}, P.Same l l₁ → (P.fl l₁).old_pool = (P.mem s).poolSnap → (P.fl l₁).cas = false → (P.fl l₁).n = some n →
        ∃ i l'' k', i ≤ 10 ∧ P.Same l₁ l'' ∧ Reach i l₁ (.stm (.ite (fun l => (P.fl l).cas) .ret .skip) :: .loop P.give :: .fn :: ctx) l'' k' ∧
          DeallocAt P n ctx l'' k' (.set (P.mem s).poolSnap) := by
      intro l₁ _ h1 h2 h3
      refine ⟨6, _, _, by omega, ⟨_, rfl⟩, .ff h2 (.step rfl (.step rfl (.step rfl (.step rfl (.step rfl .refl))))),
        .set (by simp only [P.fl_set]; exact h3) (by simp only [P.fl_set]; exact h1) (by simp only [P.fl_set, id, h3, h1])⟩
    cases ch <;> simp at hr
    · by_cases he : (P.mem s).pool = (P.fl l).old_pool.v
      · simp [he] at hr
        obtain ⟨rfl, rfl, rfl⟩ := hr
        exact ⟨_, none, by simp [sdStep, he, hp], rfl, ⟨_, rfl⟩, by simp, rfl, .tt (by rw [P.fl_set]) (.step rfl .refl)⟩
      · simp [he] at hr
        obtain ⟨rfl, rfl, rfl⟩ := hr
        exact ⟨P.mem s, some (.set (P.mem s).poolSnap), by simp [sdStep, he], rfl, ⟨_, rfl⟩, by simp, rfl,
          again ⟨_, rfl⟩ (by rw [P.fl_set]) (by rw [P.fl_set]) (by rw [P.fl_set]; exact hn)⟩
    · obtain ⟨rfl, rfl, rfl⟩ := hr
      exact ⟨P.mem s, some (.set (P.mem s).poolSnap), by simp [sdStep], rfl, ⟨_, rfl⟩, by simp, rfl,
          again ⟨_, rfl⟩ (by rw [P.fl_set]) (by rw [P.fl_set]) (by rw [P.fl_set]; exact hn)⟩

/-- An access of `allocate` can be made, as long as the allocator has memory. -/
theorem AllocAt.enabled {b : Bool} {ctx : PRest R α S L O} {l k a ac} (h : AllocAt P b ctx l (.stm (.acc ac) :: k) a) {s : S}
    (hroom : R.fixed = true ∨ (P.mem s).nalloc < R.limit) : ∃ y, ac.run t s l .go = some y := by
  cases h with
  | load => exact ⟨_, rfl⟩
  | os ho hn hb =>
    have : (P.mem s).nalloc < R.limit := by
      rcases hroom with h | h
      · simp [h] at hb
      · exact h
    simp [Port.osAllocate, Port.acc, this]
  | read ho hn => subst ho; simp [Port.readLink, Port.acc, hn]
  | cas => simp only [Port.casPool, Port.acc]; split <;> exact ⟨_, rfl⟩

theorem DeallocAt.enabled {n : Nat} {ctx : PRest R α S L O} {l k d ac} (h : DeallocAt P n ctx l (.stm (.acc ac) :: k) d) {s : S} :
    ∃ y, ac.run t s l .go = some y := by
  cases h with
  | load => exact ⟨_, rfl⟩
  | set hn => simp [Port.setLink, Port.acc, hn]
  | cas => simp only [Port.casPool, Port.acc]; split <;> exact ⟨_, rfl⟩

theorem Port.dtor_enabled {l : L} {n : Nat} (h : (P.fl l).n = some n) (s : S) : ∃ y, (P.dtor (O := O)).run t s l .go = some y := by
  simp only [Port.dtor, Port.acc, h, ← Option.isSome_iff_exists]
  split <;> rfl

theorem Port.ctor_enabled {l : L} {arg : L → Option α} {n : Nat} {v : α} (h : (P.fl l).node = some n) (ha : arg l = some v) (s : S) :
    ∃ y, (P.ctor (O := O) arg).run t s l .go = some y := by
  simp only [Port.ctor, h, ha, ← Option.isSome_iff_exists]
  split <;> rfl

/-- Every step of `saStep` is an access of `allocate`. -/
theorem AllocAt.complete {b : Bool} {ctx : PRest R α S L O} {l k a ac} (h : AllocAt P b ctx l (.stm (.acc ac) :: k) a) {s : S} {ch x}
    (hf : saFresh R (P.mem s) a) (hs : saStep R b (P.mem s) a ch = some x) : ac.ok s l ch = true ∧ ∃ y, ac.run t s l ch = some y := by
  cases h with
  | load => cases ch <;> simp [saStep] at hs; exact ⟨rfl, _, rfl⟩
  | os ho hn hb =>
    subst ho
    refine ⟨rfl, ?_⟩
    cases ch <;> simp [saStep, hn, hb] at hs
    · simp [Port.osAllocate, Port.acc, hs.1]
    · exact ⟨_, rfl⟩
  | read ho hn =>
    subst ho
    refine ⟨rfl, ?_⟩
    cases ch <;> simp [saStep, hn] at hs
    · simp [Port.readLink, Port.acc, hn]
    · simp [Port.readLink, Port.acc, hn, hs.1]
  | cas ho hn hp =>
    subst ho
    refine ⟨by simpa [Port.casPool, Port.acc, saFresh] using hf, ?_⟩
    cases ch <;> simp [saStep] at hs
    · simp only [Port.casPool, Port.acc]; split <;> exact ⟨_, rfl⟩
    · exact ⟨_, rfl⟩

/-- Every step of `sdStep` is an access of `deallocate`. -/
theorem DeallocAt.complete {n : Nat} {ctx : PRest R α S L O} {l k d ac} (h : DeallocAt P n ctx l (.stm (.acc ac) :: k) d) {s : S} {ch x}
    (hs : sdStep R (P.mem s) n d ch = some x) : ac.ok s l ch = true ∧ ∃ y, ac.run t s l ch = some y := by
  cases h with
  | load => cases ch <;> simp [sdStep] at hs; exact ⟨rfl, _, rfl⟩
  | set hn =>
    refine ⟨rfl, ?_⟩
    cases ch <;> simp [sdStep] at hs
    simp [Port.setLink, Port.acc, hn]
  | cas =>
    refine ⟨by simp [Port.casPool, Port.acc], ?_⟩
    cases ch <;> simp [sdStep] at hs
    · simp only [Port.casPool, Port.acc]; split <;> exact ⟨_, rfl⟩
    · exact ⟨_, rfl⟩

end Verif.Text
