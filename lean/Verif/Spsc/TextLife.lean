import Verif.Spsc.TextDrain

/-!
# `reset()`, constructors and destructors of `spsc_queue` as structured programs (C60)

Line by line, as in `Spsc/Text`. These functions are not thread-safe (spsc_queue.hpp:1025-1028): no other call is in progress, and the thread that executes them has
synchronised with the others, before and after, by means outside the queue (`St.joined`). The accesses are those of the consumer, thread 1; for `reset()` of a type with
trivial destructor this is a matter of notation, because all threads have the same view.

The modification orders of the two indices go on at `reset()`: the earlier stores remain, and a store of `0` is appended to each. What the theorems about `TextExec`
(C55) say for a queue whose modification orders are restarted (`Spsc.St.reset`) is carried over (`spsc_life_refines`).

`ringbuffer_base::reset` (spsc_queue.hpp:349-360) is hidden by `spsc_queue::reset` (spsc_queue.hpp:1029-1040), which has the same text.
-/

namespace Verif.Spsc.Code
open Lin Text

variable {α : Type}

/-! ### Program text -/

/-- `write_index_.store( 0, memory_order_relaxed )` (spsc_queue.hpp:1037); a relaxed store releases nothing. The lists of accepted and handed out elements (ghosts)
are restarted. -/
def resetWrite : LAcc α where
  run _ s l
    | .go _ => some ({ s with W := upd s.W (s.wlast + 1) ⟨0, .zero, 0⟩, wlast := s.wlast + 1, vc := { s.vc with w := s.wlast + 1 }, acc := [], out := [] }, l, .next)
    | _ => none

/-- `read_index_.store( 0, memory_order_release )` (spsc_queue.hpp:1038). -/
def resetRead : LAcc α where
  run _ s l
    | .go _ => some ({ s with R := upd s.R (s.rlast + 1) ⟨0, { s.vc with r := s.rlast + 1 }, 0⟩, rlast := s.rlast + 1, vc := { s.vc with r := s.rlast + 1 } }, l, .next)
    | _ => none

/-- `reset()` (spsc_queue.hpp:1029-1040). -/
def reset (cfg : Cfg) (sc : Bool) : LStm α :=
  if !cfg.trivial then call (takeMany cfg sc false false)
  else
    .acc resetWrite ;;
    .acc resetRead

def resetProgram (α : Type) (cfg : Cfg) (sc : Bool) : Program (St α) (Loc α) (Choice α) Unit Unit where
  body _ _ := some (Loc.init, reset cfg sc)
  result _ := ()
  env _ _ _ := none

/-- A queue as an object. -/
structure Ring (α : Type) where
  /-- indices and slots -/
  st : St α
  /-- `max_elements_` -/
  max_elements : SizeT
  /-- `array_`, the number of slots it was allocated with; `none`: the allocator does not lend it. In a queue sized at compile time the slots are part of the object. -/
  array : Option SizeT
  /-- arrays given back to the allocator with the number of slots, latest first -/
  freed : List SizeT

/-- Local variables of the constructors. -/
structure CtorVars where
  /-- the argument -/
  max_elements : SizeT
  /-- whether the constructor has returned, not thrown -/
  returned : Bool

/-- `ringbuffer_base()` (spsc_queue.hpp:60-63); before, the memory contains anything. -/
def initBase : Access (Ring α) CtorVars (Choice α) where
  run _ s l
    | .go _ => some ({ s with st := .initial }, l, .next)
    | _ => none

/-- `max_elements_( max_elements + 1 )` (spsc_queue.hpp:544, 557, 569). -/
def initMax : Access (Ring α) CtorVars (Choice α) where
  run _ s l
    | .go _ => some ({ s with max_elements := l.max_elements + 1 }, l, .next)
    | _ => none

/-- `array_ = allocator_traits::allocate( alloc, max_elements_ )` (spsc_queue.hpp:547-550, 559-564, 571-576), which may throw. -/
def allocateArray : Access (Ring α) CtorVars (Choice α) where
  run _ s l
    | .go _ => some ({ s with array := some s.max_elements }, l, .next)
    | .throw => some (s, l, .throws)
    | _ => none

/-- The constructors of `runtime_sized_ringbuffer` (spsc_queue.hpp:543-577; `runtime`) and the implicit one of `compile_time_sized_ringbuffer`. -/
def ctor (runtime : Bool) : Stm (Ring α) CtorVars (Choice α) :=
  .tryCatch
    ((if runtime then .acc initBase ;; .acc initMax ;; .acc allocateArray else .acc initBase) ;;
     .set fun l => { l with returned := true })
    (.set fun l => { l with returned := false })

/-- Construction with argument `max_elements`; the result: it has returned, not thrown. -/
def ctorProgram (α : Type) (runtime : Bool) : Program (Ring α) CtorVars (Choice α) SizeT Bool where
  body _ n := some (⟨n, false⟩, ctor runtime)
  result l := l.returned
  env _ _ _ := none

/-- Indices and slots are part of the object. -/
def ringPart (α : Type) : Part (Ring α) (St α) where
  get s := s.st
  put s x := { s with st := x }
  get_put _ _ := rfl
  put_put _ _ _ := rfl
  put_get _ := rfl

/-- `allocator_traits::deallocate( allocator, array_, max_elements_ )` (spsc_queue.hpp:585-590): undefined behaviour if the allocator does not lend the array, or lends
it with another number of slots. Afterwards there are no slots, and reading one is undefined behaviour. -/
def deallocateArray : Access (Ring α) (Loc α) (Choice α) where
  run _ s l
    | .go _ => if s.array = some s.max_elements then
        some ({ s with st := { s.st with cell := fun _ => none }, array := none, freed := s.max_elements :: s.freed }, l, .next)
      else some (s, l, .ub)
    | _ => none

/-- `~runtime_sized_ringbuffer` (spsc_queue.hpp:579-591; `runtime`) and `~compile_time_sized_ringbuffer` (spsc_queue.hpp:447-452). The functor `consume_noop`
does nothing; destructors of elements are assumed not to throw. -/
def dtor (cfg : Cfg) (sc runtime : Bool) : Stm (Ring α) (Loc α) (Choice α) :=
  (call (takeMany cfg sc false false)).on (ringPart α) ;;
  (if runtime then .acc deallocateArray else .skip)

def dtorProgram (α : Type) (cfg : Cfg) (sc runtime : Bool) : Program (Ring α) (Loc α) (Choice α) Unit Unit where
  body _ _ := some (Loc.init, dtor cfg sc runtime)
  result _ := ()
  env _ _ _ := none

/-! ### Executions -/

/-- The precondition of `front()` without `BOOST_ASSERT`, as `KnowsNonempty`, for stores of `write_index_` since store number `a`. -/
def KnowsSince (a : Nat) (s : St α) : Prop :=
  ∃ k, a ≤ k ∧ k ≤ s.wlast ∧ k ≤ s.vc.w ∧ (s.R s.rlast).cnt < (s.W k).cnt ∧ (s.W k).view.p ≤ s.vc.p

/-- The calls covered, as `okCall`. -/
def okSince (a : Nat) (s : St α) (o : Op α) : Prop := fits o ∧ (o = .front false → KnowsSince a s)

/-- What can happen to a queue: construction, calls of the thread-safe functions in any interleaving of the two threads, and `reset()` while no call is in progress.
`h` is the history since construction or the last `reset()` for a type with trivial destructor, `a` the number of the store of `write_index_` made by that; `reset()`
for another type is recorded in the history as the call of `consume_all` it makes. -/
inductive Used (cfg : Cfg) (sc : Bool) : Nat → History (Op α) (Ret α) → TConf α → Prop where
  | fresh : Used cfg sc 0 [] ⟨.initial, fun _ => .idle⟩
  | use {a h C h' C'} : Used cfg sc a h C → MSteps (program α cfg sc).mach (Program.ok (okSince a)) C h' C' → Used cfg sc a (h ++ h') C'
  | reset {a h C s' n b} : Used cfg sc a h C → C.pc = (fun _ => .idle) →
      Moves (resetProgram α cfg sc).mach ((resetProgram α cfg sc).okAl calm) (spurious fun _ => false) 1 C.s.joined (.run Loc.init [.stm (Code.reset cfg sc)]) [] s' (.ret ())
        n b →
      Used cfg sc (if cfg.trivial then s'.wlast else a)
        (if cfg.trivial then [] else h ++ [.inv 1 (.popMany false none), .res 1 (.poppedMany (C.s.acc.drop C.s.rel))])
        ⟨s'.joined, fun _ => .idle⟩

variable {cfg : Cfg} {sc : Bool} {N a b : Nat} {h h' : History (Op α) (Ret α)} {C C₂ : TConf α} {s s' : St α}

/-! ### Proof -/

theorem Shift.joined (h : Shift a b s s') : Shift a b s.joined s'.joined :=
  { h with vp := h.vp.join h.vc.above, vc := h.vp.join h.vc.above }

theorem okSince_shift {o : Op α} (h : Shift a b s s') (ho : okSince a s o) : okCall s' o := by
  refine ⟨ho.1, fun hf => ?_⟩
  obtain ⟨k, h1, h2, h3, h4, h5⟩ := ho.2 hf
  have hw := h.vc.w
  have hl := h.wlast
  have hm := h.W (k - a) (by omega)
  rw [show k - a + a = k by omega] at hm
  refine ⟨k - a, by omega, ?_, ?_⟩
  · rw [← hm.cnt]
    show s'.rel < _
    rw [← h.rel]
    exact h4
  · rw [← hm.view.p, ← h.vc.p]
    exact h5

theorem sync_follow (t : Nat) (s s' : St α) (ch : Choice α) (s₁ : St α) (h : Shift a b s s') (he : (program α cfg sc).env t s ch = some s₁) :
    ∃ ch' s₁', (program α cfg sc).env t s' ch' = some s₁' ∧ Shift a b s₁ s₁' := by
  simp only [program] at he
  split at he
  · cases he
    exact ⟨.sync, _, rfl, { h with vp := h.vp.join h.vc.above }⟩
  · cases he
    exact ⟨.sync, _, rfl, { h with vc := h.vc.join h.vp.above }⟩
  · cases he

/-- All accesses do the same in both states. -/
abbrev Follows (a b : Nat) (C : TConf α) : Prop := ∀ t, AllPC (Tracks (Shift a b) sameKind) (C.pc t)

theorem idle_follows (h : C.pc = fun _ => .idle) : Follows a b C := fun t => by rw [h]; trivial

/-- The access does not call a constructor. -/
def NoCtor (c : Nat) (x : LAcc α) : Prop := ∀ t s l ch y, x.run t s l ch = some y → s.ctor = c → y.1.ctor = c

theorem noCtor_loadWrite {q : Bool} {st : Loc α → SizeT → Loc α} {c : Nat} : NoCtor c (loadWrite sc q st) := by
  intro t s l ch y hr hc
  cases ch <;> simp only [loadWrite, reduceCtorEq, Option.map_eq_some_iff] at hr
  obtain ⟨x, h1, rfl⟩ := hr
  simp only [St.loadWP, St.loadWC] at h1
  (repeat' split at h1) <;> simp at h1 <;> subst h1 <;> exact hc

theorem noCtor_loadRead {q : Bool} {st : Loc α → SizeT → Loc α} {c : Nat} : NoCtor c (loadRead sc q st) := by
  intro t s l ch y hr hc
  cases ch <;> simp only [loadRead, reduceCtorEq, Option.map_eq_some_iff] at hr
  obtain ⟨x, h1, rfl⟩ := hr
  simp only [St.loadRP, St.loadRC] at h1
  (repeat' split at h1) <;> simp at h1 <;> subst h1 <;> exact hc

theorem noCtor_storeRead {x : Loc α → SizeT} {n : Loc α → Nat} {c : Nat} : NoCtor c (storeRead x n) := by
  intro t s l ch y hr hc
  cases ch <;> simp only [storeRead, reduceCtorEq, Option.some.injEq] at hr
  subst hr
  exact hc

theorem noCtor_destroy {i : Loc α → Nat} {c : Nat} : NoCtor c (destroy cfg i) := by
  intro t s l ch y hr hc
  cases ch <;> simp only [destroy, reduceCtorEq] at hr
  split at hr <;> cases hr
  · exact hc
  · rename_i s' h1
    simp only [St.destroyP, St.destroyC, St.touchP, St.touchC] at h1
    (repeat' split at h1) <;> simp at h1 <;> subst h1 <;> exact hc

theorem readC_ctor {i : Nat} {x : St α × α} (h : s.readC cfg i = some x) : x.1.ctor = s.ctor := by
  simp only [St.readC, St.touchC] at h
  (repeat' split at h) <;> simp at h
  subst h; rfl

theorem noCtor_take {i : Loc α → Nat} {c : Nat} : NoCtor c (take cfg i) := by
  intro t s l ch y hr hc
  cases ch <;> simp only [take, reduceCtorEq] at hr <;> split at hr <;> cases hr <;> first | exact hc | (rename_i h1; exact (readC_ctor h1).trans hc)

theorem takeMany_ctor {c : Nat} : (call (takeMany (α := α) cfg sc false false)).All (NoCtor c) := by
  refine ⟨?_, trivial⟩
  have : (sectionLoop (α := α) cfg false).All (NoCtor c) := by
    unfold sectionLoop
    split <;> simp [stdCopyLoop, takeLoop, Stm.All, Stm.skip, noCtor_take, noCtor_destroy]
  simp [takeMany, takeTwo, takeOne, takeSection, release, readAvailFn, Stm.All, Stm.skip, this, noCtor_loadWrite, noCtor_loadRead, noCtor_storeRead]

/-- The text of `reset()` for types with non-trivial destructor, from a state that differs in stores that can no longer be read. -/
theorem drain_ends_shift (hN : Holds cfg N) {C' : TConf α} (hx : TextExec cfg sc h ⟨C'.s, fun _ => .idle⟩) (hS : Shift a b s C'.s) (f : Nat) :
    Ends 1 calm (fun _ => false) (fun s l k => k = [] ∧ (∃ s', Shift a b s s' ∧ Drained cfg sc N C' s' l.result) ∧ s.ctor = C'.s.ctor)
      (62 * (2 * N + 5)) f s.joined Loc.init [.stm (call (takeMany cfg sc false false))] := by
  have h1 := drain_ends hN hx f
  have h2 : (call (takeMany (α := α) cfg sc false false)).All (Corr a b) := ⟨takeMany_all, trivial⟩
  have h3 := Ends.follow (Q' := fun s l k => k = [] ∧ ∃ s', Shift a b s s' ∧ Drained cfg sc N C' s' l.result) (rel := Shift a b) (same := sameKind) (s := s.joined) (k := [.stm (call (takeMany cfg sc false false))])
    (fun ch ch' h ha => by rw [calm, ← h]; exact ha)
    (fun _ _ _ => rfl)
    (AllRest.cons_iff.2 ⟨h2.mono fun _ h => h.tracks, .nil⟩) (Shift.joined hS) (fun s s' l k hr hq => ⟨hq.1, s', hr, hq.2⟩) h1
  have h0 : AllRest (NoCtor C'.s.ctor) [.stm (call (takeMany (α := α) cfg sc false false))] := AllRest.cons_iff.2 ⟨takeMany_ctor, .nil⟩
  have h4 := h3.keep (J := fun s : St α => s.ctor = C'.s.ctor) h0 (show s.joined.ctor = _ from hS.ctor)
  exact h4.weaken fun s l k h => ⟨h.1.1, h.1.2, h.2⟩

/-- An access that stores. -/
theorem Ends.store {S L : Type} {al : Choice α → Prop} {t n f : Nat} {Q : S → L → Rest S L (Choice α) → Prop} {s s₁ : S} {l l₁ : L} {k : Rest S L (Choice α)}
    {x : Access S L (Choice α)} (hal : al (.go 0)) (hok : ∀ ch, x.ok s l ch = true) (hg : x.run t s l (.go 0) = some (s₁, l₁, .next))
    (ho : ∀ ch y, x.run t s l ch = some y → y = (s₁, l₁, .next)) (h : Ends t al (fun _ => false) Q n f s₁ l₁ k) :
    Ends t al (fun _ => false) Q (n + 1) f s l (.stm (.acc x) :: k) := by
  refine .acc ⟨.go 0, _, hal, rfl, hok _, hg⟩ (fun ch s' l' _ _ hr => ?_) (fun ch s' l' w _ _ _ hr => ?_) (by simp)
  · cases ho _ _ hr
  · cases ho _ _ hr; exact h

/-- What `reset()` does for a type with trivial destructor. -/
def St.zeroed (s : St α) : St α :=
  { s with
    W := upd s.W (s.wlast + 1) ⟨0, .zero, 0⟩, wlast := s.wlast + 1
    R := upd s.R (s.rlast + 1) ⟨0, { s.vc with w := s.wlast + 1, r := s.rlast + 1 }, 0⟩, rlast := s.rlast + 1
    vc := { s.vc with w := s.wlast + 1, r := s.rlast + 1 }, acc := [], out := [] }

theorem zeroed_shift {pre : List (Option α)} {gone handed : Nat} (hi : SI cfg s' pre gone handed) (h : Shift a b s s') :
    Shift (s.wlast + 1) (s.rlast + 1) (St.zeroed s.joined).joined s'.reset := by
  have h1 := hi.vpw
  have h2 := hi.vpr
  have h3 := hi.vcw
  have h4 := hi.vcr
  have h5 := hi.vpc
  have h6 := hi.vcp
  have g1 := h.vp.p
  have g2 := h.vp.c
  have g3 := h.vp.w
  have g4 := h.vp.r
  have g5 := h.vc.p
  have g6 := h.vc.c
  have g7 := h.vc.w
  have g8 := h.vc.r
  have g9 := h.wlast
  have g10 := h.rlast
  have hv : View.Shift (s.wlast + 1) (s.rlast + 1) (St.zeroed s.joined).joined.vp s'.reset.vp := by
    constructor <;> simp only [St.zeroed, St.joined, St.reset, View.join] <;> omega
  refine { h with acc := rfl, out := rfl, wlast := ?_, rlast := ?_, W := fun k hk => ?_, R := fun k hk => ?_, vp := hv, vc := hv }
  · show s.wlast + 1 = 0 + _; omega
  · show s.rlast + 1 = 0 + _; omega
  · have : k = 0 := Nat.le_zero.1 hk
    subst this
    rw [Nat.zero_add]
    show Msg.Shift _ _ (upd s.W (s.wlast + 1) _ (s.wlast + 1)) _
    rw [upd_self]
    exact ⟨rfl, rfl, rfl, rfl, by simp [View.zero, St.reset], by simp [View.zero, St.reset]⟩
  · have : k = 0 := Nat.le_zero.1 hk
    subst this
    rw [Nat.zero_add]
    show Msg.Shift _ _ (upd s.R (s.rlast + 1) _ (s.rlast + 1)) _
    rw [upd_self]
    refine ⟨rfl, rfl, ?_⟩
    constructor <;> simp only [St.joined, St.reset, View.join] <;> omega

/-- The text of `reset()`. -/
theorem reset_total (hN : Holds cfg N) {C' : TConf α} (hx : TextExec cfg sc h ⟨C'.s, fun _ => .idle⟩) (hS : Shift a b s C'.s) :
    Total (resetProgram α cfg sc) calm (fun _ => false) 1 s.joined () (fun _ => 62 * (2 * N + 5) + 1) fun s₁ _ =>
      if cfg.trivial then s₁ = St.zeroed s.joined
      else (∃ s₂, Shift a b s₁ s₂ ∧ Drained cfg sc N C' s₂ (.poppedMany (C'.s.acc.drop C'.s.rel))) ∧ s₁.ctor = C'.s.ctor := by
  refine Total.of_ends (N := fun _ => 62 * (2 * N + 5)) (fun _ _ _ => rfl) rfl fun f => ?_
  unfold reset
  cases ht : cfg.trivial
  · refine (drain_ends_shift hN hx hS f).weaken ?_
    rintro s₁ l k ⟨rfl, ⟨s₂, h1, h2⟩, h3⟩
    refine ⟨rfl, ⟨s₂, h1, ?_⟩, h3⟩
    rw [← h2.res]; exact h2
  · refine Ends.mono (n := 0 + 1 + 1 + 1) (.step rfl ?_) (by omega)
    refine Ends.store rfl (fun _ => rfl) rfl (fun ch y hr => ?_) ?_
    · cases ch <;> simp only [resetWrite, reduceCtorEq, Option.some.injEq] at hr
      exact hr.symm
    refine Ends.store rfl (fun _ => rfl) rfl (fun ch y hr => ?_) ?_
    · cases ch <;> simp only [resetRead, reduceCtorEq, Option.some.injEq] at hr
      exact hr.symm
    · exact .here ⟨rfl, rfl⟩

/-- What has been brought about when the call returns. -/
theorem returned {S L Ch O R : Type} {P : Program S L Ch O R} {al : Ch → Prop} {o : O} {bd : Nat → Nat} {Post : S → R → Prop} {l : L} {x : Stm S L Ch} {t : Nat} {s s' : S}
    (hb : P.body t o = some (l, x)) (h : Total P al (fun _ => false) t s o bd Post) {r n b'}
    (hm : Moves P.mach (P.okAl al) (spurious fun _ => false) t s (.run l [.stm x]) [] s' (.ret r) n b') : Post s' r := by
  obtain ⟨l', x', h1, h2⟩ := h
  rw [hb] at h1
  cases h1
  exact (h2 _ _ _ _ hm).2.2.1 r rfl

theorem life_follows (hN : Holds cfg N) (hu : Used cfg sc a h C) :
    ∃ b C', TextExec cfg sc h C' ∧ Shift a b C.s C'.s ∧ C'.pc = C.pc ∧ Follows a b C := by
  induction hu with
  | fresh => exact ⟨0, _, ⟨_, .fresh, .refl _⟩, Shift.refl _, rfl, idle_follows rfl⟩
  | @use a h C h' C₂ _ hs ih =>
    obtain ⟨b, ⟨s₀, pc⟩, hx, hS, rfl, hF⟩ := ih
    obtain ⟨s₁, h1, h2, h3⟩ := Program.follow (fun t o l x hb => (body_all hb).mono fun _ h => h.tracks.1) (sync_follow (a := a) (b := b))
      (fun _ _ _ h ho => okSince_shift h ho) hS hF hs
    obtain ⟨s₂, i1, i2⟩ := hx
    exact ⟨b, ⟨s₁, C₂.pc⟩, ⟨s₂, i1, i2.trans h1⟩, h2, rfl, h3⟩
  | @reset a h C s' n b' _ hid hm ih =>
    obtain ⟨b, ⟨s₀, pc⟩, hx, hS, rfl, hF⟩ := ih
    rw [hid] at hx
    have hx : TextExec cfg sc h ⟨s₀, fun _ => .idle⟩ := hx
    have hp := returned rfl (reset_total hN (C' := ⟨s₀, fun _ => .idle⟩) hx hS) hm
    cases ht : cfg.trivial
    · simp only [ht, Bool.false_eq_true, if_false] at hp ⊢
      obtain ⟨⟨s₂, h1, h2⟩, -⟩ := hp
      refine ⟨b, ⟨s₂.joined, fun _ => .idle⟩, ?_, Shift.joined h1, rfl, idle_follows rfl⟩
      rw [hS.acc, hS.rel]
      obtain ⟨s₃, i1, i2⟩ := hx
      have i3 := ((i2.trans (sync_steps _)).trans h2.steps).trans (sync_steps _)
      exact ⟨s₃, i1, by simpa using i3⟩
    · simp only [ht, if_true] at hp ⊢
      subst hp
      obtain ⟨_, D, -, -, hD, hSa⟩ := spsc_text_refines hN hx
      obtain ⟨_, _, _, hi, -⟩ := hN.inv hD
      rw [hSa.s] at hi
      obtain ⟨s₃, i1, i2⟩ := hx
      exact ⟨_, ⟨s₀.reset, fun _ => .idle⟩, ⟨_, .reset i1 i2 (fun _ => rfl) ht, .refl _⟩, zeroed_shift hi hS, rfl, idle_follows rfl⟩

/-! ### Calls before and after `reset()` -/

/-- **C60 (`reset()` of `spsc_queue`).** Every use of a queue, with `reset()` executed line by line and the modification orders going on, is one described by C55: same
history, same local variables, and states that differ in stores of the indices that no thread can read any more. -/
theorem spsc_life_refines (hN : Holds cfg N) (hu : Used cfg sc a h C) : ∃ b C', TextExec cfg sc h C' ∧ Shift a b C.s C'.s ∧ C'.pc = C.pc := by
  obtain ⟨b, C', h1, h2, h3, -⟩ := life_follows hN hu
  exact ⟨b, C', h1, h2, h3⟩

theorem life_part (hN : Holds cfg N) (hu : Used cfg sc a h C) (hs : MSteps (program α cfg sc).mach (Program.ok (okSince a)) C h' C₂) :
    ∃ b C' C₂', TextExec cfg sc h C' ∧ Shift a b C.s C'.s ∧ C'.pc = C.pc ∧ MSteps (program α cfg sc).mach (Program.ok okCall) C' h' C₂' ∧
      Shift a b C₂.s C₂'.s ∧ C₂'.pc = C₂.pc := by
  obtain ⟨b, ⟨s₀, pc⟩, hx, hS, rfl, hF⟩ := life_follows hN hu
  obtain ⟨s₁, h1, h2, h3⟩ := Program.follow (fun t o l x hb => (body_all hb).mono fun _ h => h.tracks.1) (sync_follow (a := a) (b := b))
    (fun _ _ _ h ho => okSince_shift h ho) hS hF hs
  exact ⟨b, _, ⟨s₁, C₂.pc⟩, hx, hS, rfl, h1, h2, rfl⟩

theorem exec_trans {C' C₂' : TConf α} (hx : TextExec cfg sc h C') (hs : MSteps (program α cfg sc).mach (Program.ok okCall) C' h' C₂') : TextExec cfg sc (h ++ h') C₂' := by
  obtain ⟨s₀, h1, h2⟩ := hx
  exact ⟨s₀, h1, h2.trans hs⟩

/-- What C55 says about the state. -/
theorem text_si (hN : Holds cfg N) (hx : TextExec cfg sc h C) : ∃ pre g k, SI cfg C.s pre g k := by
  obtain ⟨_, D, -, -, hD, hSa⟩ := spsc_text_refines hN hx
  obtain ⟨pre, g, k, hi, -⟩ := hN.inv hD
  rw [hSa.s] at hi
  exact ⟨pre, g, k, hi⟩

/-- **C60 (linearizability).** If loads return the latest store. -/
theorem spsc_life_linearizable (hN : Holds cfg N) (hu : Used cfg true a h C) : Linearizable (spec α N) h := by
  obtain ⟨_, _, hx, -⟩ := spsc_life_refines hN hu
  exact spsc_text_linearizable hN hx

/-- **C60 (no undefined behaviour).** -/
theorem spsc_life_no_undefined_behaviour (hN : Holds cfg N) (hu : Used cfg sc a h C) (t : Nat) : C.pc t ≠ .err := by
  obtain ⟨_, _, hx, -, hp⟩ := spsc_life_refines hN hu
  rw [← hp]
  exact spsc_text_no_undefined_behaviour hN hx t

/-- **C60 (first in, first out).** -/
theorem spsc_life_fifo (hN : Holds cfg N) (hu : Used cfg sc a h C) :
    ∃ inflight, inflight <+: (pendingOp 0 h).elim [] offers ∧ delivered h <+: accepted h ++ inflight := by
  obtain ⟨_, _, hx, -⟩ := spsc_life_refines hN hu
  exact spsc_text_fifo hN hx

/-- **C60 (nothing lost).** -/
theorem spsc_life_fifo_quiescent (hN : Holds cfg N) (hu : Used cfg sc a h C) (h0 : C.pc 0 = .idle) (h1 : C.pc 1 = .idle) :
    C.s.acc = accepted h ∧ C.s.out = delivered h ∧ C.s.rel = (delivered h).length ∧ accepted h = delivered h ++ C.s.acc.drop C.s.rel := by
  obtain ⟨_, _, hx, hS, hp⟩ := spsc_life_refines hN hu
  rw [← hp] at h0 h1
  rw [hS.acc, hS.out, hS.rel]
  exact spsc_text_fifo_quiescent hN hx h0 h1

/-- **C60 (what the slots hold).** -/
theorem spsc_life_slots (hN : Holds cfg N) (hu : Used cfg sc a h C) (h0 : C.pc 0 = .idle) (h1 : C.pc 1 = .idle) {q : Nat}
    (hq : C.s.rel ≤ q) (hq' : q ≤ C.s.rel + N) :
    (q < C.s.acc.length → C.s.cell (q % (N + 1)) = C.s.acc[q]?) ∧ (C.s.acc.length ≤ q → cfg.trivial = false → C.s.cell (q % (N + 1)) = none) := by
  obtain ⟨_, _, hx, hS, hp⟩ := spsc_life_refines hN hu
  rw [← hp] at h0 h1
  rw [hS.rel] at hq hq'
  rw [hS.acc, hS.cell]
  exact spsc_text_slots hN hx h0 h1 hq hq'

/-- **C60 (constructors and destructors balance).** `reset()` included. -/
theorem spsc_life_balance (hN : Holds cfg N) (hu : Used cfg sc a h C) (h0 : C.pc 0 = .idle) (h1 : C.pc 1 = .idle) (ht : cfg.trivial = false) :
    C.s.ctor = C.s.dtor + ((accepted h).length - (delivered h).length) ∧ (delivered h).length ≤ (accepted h).length := by
  obtain ⟨_, _, hx, hS, hp⟩ := spsc_life_refines hN hu
  rw [← hp] at h0 h1
  rw [hS.ctor, hS.dtor]
  exact spsc_text_balance hN hx h0 h1 ht

theorem seenReleased_shift {s₁ s₂ s₁' s₂' : St α} {pre : List (Option α)} {g k n : Nat} (hi : SI cfg s₂' pre g k) (h1 : Shift a b s₁ s₁') (h2 : Shift a b s₂ s₂')
    (h : SeenReleased s₁' s₂' n) : SeenReleased s₁ s₂ n := by
  obtain ⟨j, j1, j2, j3⟩ := h
  have := h1.vp.r
  have := h2.vp.r
  exact ⟨j + b, by omega, by omega, by rw [(h2.R j (Nat.le_trans j2 hi.vpr)).cnt, j3]⟩

theorem seenAccepted_shift {s₁ s₂ s₁' s₂' : St α} {pre : List (Option α)} {g k n : Nat} (hi : SI cfg s₂' pre g k) (h1 : Shift a b s₁ s₁') (h2 : Shift a b s₂ s₂')
    (h : SeenAccepted s₁' s₂' n) : SeenAccepted s₁ s₂ n := by
  obtain ⟨j, j1, j2, j3⟩ := h
  have := h1.vc.w
  have := h2.vc.w
  exact ⟨j + a, by omega, by omega, by rw [(h2.W j (Nat.le_trans j2 hi.vcw)).cnt, j3]⟩

theorem knowsNonempty_shift {s s' : St α} {pre : List (Option α)} {g k : Nat} (hi : SI cfg s' pre g k) (h : Shift a b s s') (hk : KnowsNonempty s') : KnowsSince a s := by
  obtain ⟨j, j1, j2, j3⟩ := hk
  have h1 := h.vc.w
  have h2 := h.wlast
  have h3 := hi.vcw
  have h4 := h.W j (by omega)
  refine ⟨j + a, by omega, by omega, by omega, ?_, ?_⟩
  · rw [h4.cnt]
    show s.rel < _
    rw [h.rel]
    exact j2
  · rw [h4.view.p, h.vc.p]
    exact j3

/-- **C60 (calls of the producer).** -/
theorem spsc_life_producer_call (hN : Holds cfg N) (hu : Used cfg sc a h C) (h0 : C.pc 0 = .idle)
    (hs : MSteps (program α cfg sc).mach (Program.ok (okSince a)) C h' C₂) {o r} (hc : ofThread 0 h' = [.inv 0 o, .res 0 r]) :
    producerPost N C.s C₂.s o r := by
  obtain ⟨b, C', C₂', hx, h1, h2, h3, h4, h5⟩ := life_part hN hu hs
  rw [← h2] at h0
  have hp := spsc_text_producer_call hN hx h0 h3 hc
  obtain ⟨pre, g, k, hi⟩ := text_si hN (exec_trans hx h3)
  have hr : ∀ {n}, SeenReleased C'.s C₂'.s n → SeenReleased C.s C₂.s n := fun h => seenReleased_shift hi h1 h4 h
  unfold producerPost at hp ⊢
  rw [h1.acc, h4.acc]
  split at hp
  · obtain ⟨k, i1, i2⟩ := hp
    exact ⟨k, hr i1, i2⟩
  · obtain ⟨k, i1, i2⟩ := hp
    exact ⟨k, hr i1, i2⟩
  · exact ⟨hr hp.1, hp.2⟩
  · obtain ⟨k, i1, i2⟩ := hp
    exact ⟨k, hr i1, i2⟩
  · exact hp
  · exact hp
  · exact hp.elim

/-- **C60 (calls of the consumer).** -/
theorem spsc_life_consumer_call (hN : Holds cfg N) (hu : Used cfg sc a h C) (h0 : C.pc 1 = .idle)
    (hs : MSteps (program α cfg sc).mach (Program.ok (okSince a)) C h' C₂) {o r} (hc : ofThread 1 h' = [.inv 1 o, .res 1 r]) :
    consumerPost C.s C₂.s o r := by
  obtain ⟨b, C', C₂', hx, h1, h2, h3, h4, h5⟩ := life_part hN hu hs
  rw [← h2] at h0
  have hp := spsc_text_consumer_call hN hx h0 h3 hc
  obtain ⟨pre, g, k, hi⟩ := text_si hN (exec_trans hx h3)
  have hr : ∀ {n}, SeenAccepted C'.s C₂'.s n → SeenAccepted C.s C₂.s n := fun h => seenAccepted_shift hi h1 h4 h
  have hut : Untaken C'.s C₂'.s → Untaken C.s C₂.s := fun h => by
    unfold Untaken
    rw [h1.rel, h4.rel, h1.out, h4.out]
    exact h
  have hkn : KnowsNonempty C₂'.s → KnowsNonempty C₂.s := fun h => by
    obtain ⟨k, -, -, i⟩ := knowsNonempty_shift hi h4 h
    exact ⟨k, i⟩
  unfold consumerPost at hp ⊢
  rw [h1.rel, h4.rel, h4.acc, h1.out, h4.out]
  split at hp
  · exact ⟨hr hp.1, hut hp.2⟩
  · obtain ⟨⟨k, i1, i2⟩, i3⟩ := hp
    exact ⟨⟨k, hr i1, i2⟩, i3⟩
  · obtain ⟨k, i1, i2⟩ := hp
    exact ⟨k, hr i1, i2⟩
  · exact ⟨hr hp.1, fun h => hkn (hp.2.1 h), hut hp.2.2⟩
  · obtain ⟨k, i1, i2, i3⟩ := hp
    exact ⟨k, hr i1, i2, hut i3⟩
  · obtain ⟨⟨k, i1, i2⟩, i3, i4⟩ := hp
    exact ⟨⟨k, hr i1, i2⟩, i3, hut i4⟩
  · exact ⟨hr hp.1, hut hp.2⟩
  · exact hut hp
  · exact hut hp
  · exact hp.elim

/-- **C60 (`write_available()` is reliable).** -/
theorem spsc_life_write_available_reliable (hN : Holds cfg N) (hu : Used cfg sc a h C) (h0 : C.pc 0 = .idle)
    (hs : MSteps (program α cfg sc).mach (Program.ok (okSince a)) C h' C₂) {n cs} (hc : ofThread 0 h' = callEvents 0 ((.writeAvail, .writeAvail n) :: cs)) :
    n ≤ N ∧ PushesServed n cs := by
  obtain ⟨b, C', C₂', hx, h1, h2, h3, h4, h5⟩ := life_part hN hu hs
  rw [← h2] at h0
  exact spsc_text_write_available_reliable hN hx h0 h3 hc

/-- **C60 (`read_available()` is reliable).** A positive result permits `front()` without `BOOST_ASSERT`. -/
theorem spsc_life_read_available_reliable (hN : Holds cfg N) (hu : Used cfg sc a h C) (h0 : C.pc 1 = .idle)
    (hs : MSteps (program α cfg sc).mach (Program.ok (okSince a)) C h' C₂) {n cs} (hc : ofThread 1 h' = callEvents 1 ((.readAvail, .readAvail n) :: cs)) :
    n ≤ N ∧ PopsServed n cs ∧ (cs = [] → 0 < n → KnowsSince a C₂.s) := by
  obtain ⟨b, C', C₂', hx, h1, h2, h3, h4, h5⟩ := life_part hN hu hs
  rw [← h2] at h0
  obtain ⟨i1, i2, i3⟩ := spsc_text_read_available_reliable hN hx h0 h3 hc
  obtain ⟨pre, g, k, hi⟩ := text_si hN (exec_trans hx h3)
  exact ⟨i1, i2, fun hcs hn => knowsNonempty_shift hi h4 (i3 hcs hn)⟩

/-- **C60 (`front()`).** -/
theorem spsc_life_front (hN : Holds cfg N) (hu : Used cfg sc a h C) (h0 : C.pc 1 = .idle)
    (hs : MSteps (program α cfg sc).mach (Program.ok (okSince a)) C h' C₂) {b v o r}
    (hc : ofThread 1 h' = callEvents 1 [(.front b, .front v), (o, r)]) (ht : takes o)
    (hl : ∀ c, o ≠ .popMany c (some 0)) (hr : r ≠ .threw) : (delivers (o, r)).head? = some v := by
  obtain ⟨_, C', C₂', hx, h1, h2, h3, h4, h5⟩ := life_part hN hu hs
  rw [← h2] at h0
  exact spsc_text_front hN hx h0 h3 hc ht hl hr

/-- **C60 (wait-freedom).** -/
theorem spsc_life_wait_free (hN : Holds cfg N) (hu : Used cfg sc a h C) {t : Nat} (ht : t ≤ 1) (h0 : C.pc t = .idle)
    {C₂ : MConf (St α × Nat) (TPC (St α) (Loc α) (Choice α) (Ret α))}
    (hs : MSteps ((program α cfg sc).mach.count (stepsOfThread t)) (fun s => Program.ok (okSince a) s.1) ⟨(C.s, 0), C.pc⟩ h' C₂) {o r}
    (hc : ofThread t h' <+: [.inv t o, .res t r]) :
    C₂.s.2 ≤ 62 * maxSteps N o ∧ (ofThread t h' = [.inv t o, .res t r] → C₂.s.2 ≤ 62 * stepsOf N o r) := by
  obtain ⟨b, ⟨s₀, pc⟩, hx, hS, rfl, hF⟩ := life_follows hN hu
  obtain ⟨s₁, h1, h2, h3⟩ := Program.follow_count (fun t o l x hb => (body_all hb).mono fun _ h => h.tracks.1) (sync_follow (a := a) (b := b))
    (fun _ _ _ h ho => okSince_shift h ho) (C := ⟨(C.s, 0), C.pc⟩) hS hF hs
  exact spsc_text_wait_free hN hx ht h0 h1 hc

theorem used_corr (hu : Used cfg sc a h C) (i j t : Nat) : AllPC (Corr i j) (C.pc t) := by
  induction hu generalizing t with
  | fresh | reset => trivial
  | use _ hs ih => exact Program.all_steps (fun t o l x hb => body_all hb) (fun t => ih t) hs t

/-- **C60 (never stuck).** A call in progress can continue, without exception. -/
theorem spsc_life_never_blocks (hN : Holds cfg N) (hu : Used cfg sc a h C) {t : Nat} (ht : C.pc t ≠ .idle) :
    ∃ ch y, (ch = .tau ∨ ∃ c, ch = .act c ∧ calm c) ∧ Program.ok (okSince a) C.s (C.pc t) ch ∧ (program α cfg sc).mach.step t C.s (C.pc t) ch = some y := by
  obtain ⟨b, C', hx, hS, hp⟩ := spsc_life_refines hN hu
  have hF := used_corr hu a b t
  rw [← hp] at ht hF ⊢
  obtain ⟨ch, y, h1, h2, h3⟩ := spsc_text_never_blocks hN hx ht
  generalize C'.pc t = q at *
  rcases h1 with rfl | ⟨j, rfl⟩
  · refine ⟨.tau, ?_⟩
    cases q with
    | idle => exact absurd rfl ht
    | ret => exact ⟨_, .inl rfl, trivial, rfl⟩
    | err => cases h3
    | run l k =>
      cases k with
      | nil => exact ⟨_, .inl rfl, trivial, rfl⟩
      | cons i k =>
        simp only [Program.mach, Option.map_eq_some_iff] at h3
        obtain ⟨x, h4, -⟩ := h3
        exact ⟨_, .inl rfl, by simp only [Program.ok], by simp only [Program.mach, h4]; rfl⟩
  · cases q with
    | idle => exact absurd rfl ht
    | ret | err => cases h3
    | run l k =>
      match k with
      | .stm (.acc x) :: k =>
        obtain ⟨g1, g2⟩ := AllRest.cons_iff.1 hF
        simp only [Program.mach] at h3
        generalize hz : x.run t C'.s l (.go j) = z at h3
        cases z with
        | none => cases h3
        | some z =>
          obtain ⟨s₁, l₁, f⟩ := z
          obtain ⟨ch', s₁', i1, i2, i3, i4⟩ := g1.tracks.2 _ _ _ _ _ _ _ _ hS hz
          have : ∃ y, (program α cfg sc).mach.step t C.s (.run l (.stm (.acc x) :: k)) (.act ch') = some y := by
            simp only [Program.mach, i3]
            cases f <;> exact ⟨_, rfl⟩
          obtain ⟨y, hy⟩ := this
          exact ⟨.act ch', y, .inr ⟨ch', rfl, by rw [calm, ← i1]; rfl⟩, i2 h2, hy⟩

/-! ### `reset()` -/

/-- **C60 (`reset()` as program text).** While no call is in progress, `reset()` ends, without undefined behaviour, after a bounded number of steps, and the queue is empty. For a
type with trivial destructor both indices are 0 and no slot is touched; otherwise each element that was in the queue has been handed to the functor, in order, and destroyed. -/
theorem spsc_text_reset (hN : Holds cfg N) (hu : Used cfg sc a h C) (hq : C.pc = fun _ => .idle) :
    Total (resetProgram α cfg sc) calm (fun _ => false) 1 C.s.joined () (fun _ => 62 * (2 * N + 5) + 1) fun s _ =>
      s.rel = s.acc.length ∧ s.ctor = C.s.ctor ∧
      if cfg.trivial then (s.W s.wlast).val = 0 ∧ (s.R s.rlast).val = 0 ∧ s.acc = [] ∧ s.cell = C.s.cell ∧ s.dtor = C.s.dtor
      else s.acc = C.s.acc ∧ s.out = C.s.out ++ C.s.acc.drop C.s.rel ∧ s.dtor = s.ctor ∧ ∀ i, i ≤ N → s.cell i = none := by
  obtain ⟨b, ⟨s₀, pc⟩, hx, hS, rfl⟩ := spsc_life_refines hN hu
  rw [hq] at hx
  refine (reset_total hN (C' := ⟨s₀, fun _ => .idle⟩) hx hS).mono fun s r hp => ?_
  cases ht : cfg.trivial
  · simp only [ht, Bool.false_eq_true, if_false] at hp ⊢
    obtain ⟨⟨s₂, h1, h2⟩, h3⟩ := hp
    obtain ⟨h4, h5⟩ := h2.dead ht
    refine ⟨by rw [h1.rel, h1.acc]; exact h2.rel, h3.trans hS.ctor.symm, by rw [h1.acc, h2.acc, hS.acc], ?_, by rw [h1.dtor, h1.ctor, h4], ?_⟩
    · rw [h1.out, h2.out, hS.out, hS.acc, hS.rel]
    · rw [h1.cell]; exact h5
  · simp only [ht, if_true] at hp ⊢
    subst hp
    simp [St.zeroed, St.joined, St.rel]

/-- **C60 (capacity).** Whenever all accepted elements were released and the producer knows it, a bulk push of up to `N` elements that does not throw accepts all. -/
theorem spsc_life_full_capacity (hN : Holds cfg N) (hu : Used cfg sc a h C) (h0 : C.pc 0 = .idle) (he : C.s.rel = C.s.acc.length) (hk : C.s.vp.r = C.s.rlast)
    (hs : MSteps (program α cfg sc).mach (Program.ok (okSince a)) C h' C₂) {vs r} (hl : vs.length ≤ N)
    (hc : ofThread 0 h' = [.inv 0 (.pushMany vs), .res 0 r]) (hr : r ≠ .threw) : r = .pushedMany vs.length ∧ C₂.s.acc = C.s.acc ++ vs := by
  obtain ⟨b, C', C₂', hx, h1, h2, h3, h4, h5⟩ := life_part hN hu hs
  obtain ⟨D₁, D₂, i1, i2, i3, i4⟩ := spsc_text_refines_part hN hx h3
  rw [← h2] at h0
  have e1 := h1.vp.r
  have e2 := h1.rlast
  obtain ⟨j1, j2⟩ := spsc_full_capacity hN i1 (i2.idle h0) (by rw [i2.s, ← h1.rel, ← h1.acc]; exact he) (by rw [i2.s]; omega) i3 hl hc hr
  rw [i4.s, i2.s, ← h4.acc, ← h1.acc] at j2
  exact ⟨j1, j2⟩

/-- **C60 (capacity after `reset()`).** A bulk push after `reset()` of up to `N` elements that does not throw accepts all, whatever has been done before. -/
theorem spsc_life_reset_capacity (hN : Holds cfg N) (hu : Used cfg sc a h C) (hq : C.pc = fun _ => .idle) {n b}
    (hm : Moves (resetProgram α cfg sc).mach ((resetProgram α cfg sc).okAl calm) (spurious fun _ => false) 1 C.s.joined (.run Loc.init [.stm (Code.reset cfg sc)]) [] s
      (.ret ()) n b)
    (hs : MSteps (program α cfg sc).mach (Program.ok (okSince (if cfg.trivial then s.wlast else a))) ⟨s.joined, fun _ => .idle⟩ h' C₂) {vs r} (hl : vs.length ≤ N)
    (hc : ofThread 0 h' = [.inv 0 (.pushMany vs), .res 0 r]) (hr : r ≠ .threw) : r = .pushedMany vs.length ∧ C₂.s.acc = s.acc ++ vs := by
  have hu' := Used.reset hu hq hm
  refine spsc_life_full_capacity hN hu' rfl ?_ ?_ hs hl hc hr
  · exact (returned rfl (spsc_text_reset hN hu hq) hm).1
  · obtain ⟨j, C', hx, hS, -⟩ := spsc_life_refines hN hu'
    obtain ⟨pre, g, k, hi⟩ := text_si hN hx
    have e1 := hS.vc.r
    have e2 := hS.rlast
    have e3 := hi.vcr
    show s.joined.vc.r = _
    show s.joined.vc.r = s.joined.rlast
    simp only [] at e1 e2
    omega

/-! ### Construction and destruction -/

/-- **C60 (constructor of `spsc_queue` with capacity at run time, as program text).** It ends, without undefined behaviour. If it returns, then the queue is the one executions start from,
with a slot more than the capacity `n`; if the allocator throws, nothing has been allocated. -/
theorem spsc_text_constructor (s : Ring α) (n : SizeT) (t : Nat) :
    Total (ctorProgram α true) (fun _ => True) (fun _ => false) t s n (fun _ => 12) fun s' r => s'.freed = s.freed ∧
      (r = true → s'.st = .initial ∧ s'.max_elements = n + 1 ∧ s'.array = some (n + 1)) ∧ (r = false → s'.array = s.array) := by
  refine Total.of_ends (N := fun _ => 11) (fun _ _ _ => rfl) rfl fun f => ?_
  refine .step rfl (.step rfl (.step rfl ?_))
  refine Ends.store trivial (fun _ => rfl) rfl (fun ch y hr => ?_) ?_
  · cases ch <;> simp only [initBase, reduceCtorEq, Option.some.injEq] at hr
    exact hr.symm
  refine .step rfl ?_
  refine Ends.store trivial (fun _ => rfl) rfl (fun ch y hr => ?_) ?_
  · cases ch <;> simp only [initMax, reduceCtorEq, Option.some.injEq] at hr
    exact hr.symm
  refine .acc ⟨.go 0, _, trivial, rfl, rfl, rfl⟩ (fun ch s' l' _ _ hr => ?_) (fun ch s' l' w _ _ _ hr => ?_) (by simp)
  · cases ch <;> simp [allocateArray] at hr
  · cases ch <;> simp only [allocateArray, reduceCtorEq, Option.some.injEq, Prod.mk.injEq] at hr
    · obtain ⟨rfl, rfl, rfl⟩ := hr
      refine .step rfl (.step rfl (.here ⟨rfl, rfl, fun _ => ⟨rfl, rfl, rfl⟩, fun h => ?_⟩))
      simp [ctorProgram] at h
    · obtain ⟨rfl, rfl, rfl⟩ := hr
      refine .step rfl (.here ⟨rfl, rfl, fun h => ?_, fun _ => rfl⟩)
      simp [ctorProgram] at h

/-- The capacities covered. -/
theorem spsc_constructed_holds {n : SizeT} (hn : n.toNat < 2 ^ 63) (triv : Bool) : Holds ⟨n + 1, triv⟩ n.toNat := by
  refine ⟨?_, hn⟩
  show (n + 1).toNat = _
  rw [BitVec.toNat_add]
  simp
  omega

/-- **C60 (constructor of `spsc_queue` with capacity at compile time, as program text).** -/
theorem spsc_text_constructor_fixed (s : Ring α) (n : SizeT) (t : Nat) :
    Total (ctorProgram α false) (fun _ => True) (fun _ => false) t s n (fun _ => 6) fun s' r => r = true ∧ s' = { s with st := .initial } := by
  refine Total.of_ends (N := fun _ => 5) (fun _ _ _ => rfl) rfl fun f => ?_
  refine .step rfl (.step rfl ?_)
  refine Ends.store trivial (fun _ => rfl) rfl (fun ch y hr => ?_) ?_
  · cases ch <;> simp only [initBase, reduceCtorEq, Option.some.injEq] at hr
    exact hr.symm
  exact .step rfl (.step rfl (.here ⟨rfl, rfl, rfl⟩))

/-- **C60 (destructor of `spsc_queue` as program text).** It ends, without undefined behaviour, after a bounded number of steps; each element that was in the queue has been handed to the
functor, in order, and, if the destructor is not trivial, every object constructed in a slot has been destroyed once. A queue sized at run time has given its array back, with the number
of slots it was allocated with. -/
theorem spsc_text_destructor (hN : Holds cfg N) (hu : Used cfg sc a h C) (hq : C.pc = fun _ => .idle) (runtime : Bool) {s : Ring α} (hs : s.st = C.s.joined)
    (hm : runtime = true → s.max_elements = cfg.size ∧ s.array = some cfg.size) :
    Total (dtorProgram α cfg sc runtime) calm (fun _ => false) 1 s () (fun _ => 62 * (2 * N + 5) + 3) fun s' _ =>
      s'.st.rel = s'.st.acc.length ∧ s'.st.acc = C.s.acc ∧ s'.st.out = C.s.out ++ C.s.acc.drop C.s.rel ∧ s'.st.ctor = C.s.ctor ∧
      (cfg.trivial = false → s'.st.dtor = s'.st.ctor ∧ ∀ i, i ≤ N → s'.st.cell i = none) ∧
      s'.array = (if runtime then none else s.array) ∧ s'.freed = if runtime then cfg.size :: s.freed else s.freed := by
  obtain ⟨b, ⟨s₀, pc⟩, hx, hS, rfl⟩ := spsc_life_refines hN hu
  rw [hq] at hx
  refine Total.of_ends (N := fun _ => 62 * (2 * N + 5) + 2) (fun _ _ _ => rfl) rfl fun f => ?_
  refine .step rfl ?_
  have h1 := drain_ends_shift hN (C' := ⟨s₀, fun _ => .idle⟩) hx hS f
  rw [← hs] at h1
  refine Ends.on (V := ringPart α) (m := 1) (K := [.stm (if runtime then .acc deallocateArray else .skip)]) rfl h1 ?_
  rintro s₁ l k g - ⟨rfl, ⟨s₂, h2, h3⟩, h4⟩
  have hst : s₁.rel = s₁.acc.length ∧ s₁.acc = C.s.acc ∧ s₁.out = C.s.out ++ C.s.acc.drop C.s.rel ∧ s₁.ctor = C.s.ctor ∧
      (cfg.trivial = false → s₁.dtor = s₁.ctor ∧ ∀ i, i ≤ N → s₁.cell i = none) := by
    refine ⟨by rw [h2.rel, h2.acc]; exact h3.rel, by rw [h2.acc, h3.acc, hS.acc], ?_, h4.trans hS.ctor.symm, fun ht => ?_⟩
    · rw [h2.out, h3.out, hS.out, hS.acc, hS.rel]
    · rw [h2.dtor, h2.ctor, h2.cell]
      exact ⟨(h3.dead ht).1.symm, (h3.dead ht).2⟩
  obtain ⟨i1, i2, i3, i4, i5⟩ := hst
  cases runtime
  · exact .step rfl (.here ⟨rfl, i1, i2, i3, i4, i5, rfl, rfl⟩)
  · obtain ⟨j1, j2⟩ := hm rfl
    have hd : s.array = some s.max_elements := j2.trans (by rw [j1])
    refine Ends.store (s₁ := { s with st := { s₁ with cell := fun _ => none }, array := none, freed := s.max_elements :: s.freed }) (l₁ := l) rfl (fun _ => rfl) ?_ (fun ch y hr => ?_) ?_
    · simp [deallocateArray, ringPart, hd]
    · cases ch <;> simp [deallocateArray, ringPart, hd] at hr
      exact hr.symm
    · exact .here ⟨rfl, i1, i2, i3, i4, fun ht => ⟨(i5 ht).1, fun _ _ => rfl⟩, rfl, by simp [j1]⟩

end Verif.Spsc.Code
