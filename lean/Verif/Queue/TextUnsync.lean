import Verif.TextUnsync
import Verif.Queue.TextProps

/-!
# The unsynchronized member functions of `include/boost/lockfree/queue.hpp` as structured programs (C58)

`unsynchronized_push`, `unsynchronized_pop`, `reserve_unsafe`, line by line, on stored words, with all exceptions that may be thrown. The functions of
the freelist are given here for `ThreadSafe = false`; those of `Queue/Text` are for `true`.
-/

namespace Verif.Queue.Code
open Lin Text

variable {α : Type} {R : Rep}

/-- `tail->next.store( new_tail_next )`. -/
def storeNext : LAcc R α where
  run _ s l ch :=
    match R.K.node (R.K.ptr l.tail.v), ch with
    | none, _ => some (s, l, .ub)
    | some x, .go =>
      some ({ s with mem := { s.mem with next := upd s.mem.next x l.new_tail_next, nver := upd s.mem.nver x (s.mem.nver x + 1) } }, l, .next)
    | _, _ => none

/-- `tail_.store( new_tail )`. -/
def storeTail : LAcc R α where
  run _ s l
    | .go => some ({ s with tail := l.new_tail, tailVer := s.tailVer + 1 }, l, .next)
    | _ => none

/-- `head_.store( new_head )`. -/
def storeHead : LAcc R α where
  run _ s l
    | .go => some ({ s with head := l.new_head, headVer := s.headVer + 1 }, l, .next)
    | _ => none

/-- `pool.template construct< false, false >( t, pool.null_handle() )` (freelist.hpp:95-102, 463-472). -/
def constructU : LStm R α :=
  .fn (
    .fn ((port R α).allocateU false) ;;
    .ite (fun l => l.fl.node.isSome)
      nodeCtor
      .skip)

/-- `pool.template destruct< false >( head )` (freelist.hpp:104-110, 474-481). -/
def destructU : LStm R α :=
  .set (fun l => { l with fl := { l.fl with n := R.K.node (R.K.ptr l.head.v) } }) ;;
  .fn (
    .acc dtor ;;
    .fn (port R α).deallocateU)

/-- The body of `if ( next_ptr == 0 )` in `unsynchronized_push` (queue.hpp:390-392). -/
def appendNodeU : LStm R α :=
  .set (fun l => { l with new_tail_next := R.K.pack (R.K.hnd l.n) (R.K.next (R.K.tag l.next.v)) }) ;;
  .acc storeNext ;;
  .set (fun l => { l with new_tail := R.K.pack (R.K.hnd l.n) (R.K.next (R.K.tag l.tail.v)) }) ;;
  .acc storeTail ;;
  .set (fun l => { l with result := .pushed true }) ;;
  .ret

/-- The loop of `unsynchronized_push` (queue.hpp:384-395). -/
def pushLoopU : LStm R α :=
  .acc (loadTail fun l x => { l with tail := x }) ;;
  .acc (loadNext (fun l => R.K.node (R.K.ptr l.tail.v)) fun _ _ _ => false) ;;
  .set (fun l => { l with next_ptr := R.K.node (R.K.ptr l.next.v) }) ;;
  .ite (fun l => l.next_ptr.isNone)
    appendNodeU
    (.set (fun l => { l with new_tail := R.K.pack (R.K.hnd l.next_ptr) (R.K.next (R.K.tag l.tail.v)) }) ;;
     .acc storeTail)

/-- `unsynchronized_push( t )` (queue.hpp:377-396). -/
def unsynchronizedPush : LStm R α :=
  constructU ;;
  .set (fun l => { l with n := l.fl.node }) ;;
  .ite (fun l => l.n.isNone)
    (.set (fun l => { l with result := .pushed false }) ;;
     .ret)
    .skip ;;
  .forever pushLoopU

/-- queue.hpp:492-496. -/
def helpTailU : LStm R α :=
  .ite (fun l => l.next_ptr.isNone)
    (.set (fun l => { l with result := .popped none }) ;;
     .ret)
    .skip ;;
  .set (fun l => { l with new_tail := R.K.pack (R.K.ptr l.next.v) (R.K.next (R.K.tag l.tail.v)) }) ;;
  .acc storeTail

/-- queue.hpp:498-509. -/
def takeFirstU : LStm R α :=
  .ite (fun l => l.next_ptr.isNone)
    .cont
    .skip ;;
  .acc copyPayload ;;
  .set (fun l => { l with new_head := R.K.pack (R.K.ptr l.next.v) (R.K.next (R.K.tag l.head.v)) }) ;;
  .acc storeHead ;;
  destructU ;;
  .set (fun l => { l with result := .popped l.ret }) ;;
  .ret

/-- The loop of `unsynchronized_pop` (queue.hpp:484-511). -/
def popLoopU : LStm R α :=
  .acc (loadHead fun l x => { l with head := x }) ;;
  .set (fun l => { l with head_ptr := R.K.node (R.K.ptr l.head.v) }) ;;
  .acc (loadTail fun l x => { l with tail := x }) ;;
  .acc (loadNext (fun l => l.head_ptr) fun _ _ _ => false) ;;
  .set (fun l => { l with next_ptr := R.K.node (R.K.ptr l.next.v) }) ;;
  .ite (fun l => R.K.ptr l.head.v == R.K.ptr l.tail.v)
    helpTailU
    takeFirstU

/-- `unsynchronized_pop( ret )` (queue.hpp:481-512). -/
def unsynchronizedPop : LStm R α :=
  .forever popLoopU

/-- The loop of `reserve< false >( count )` (freelist.hpp:70-74). -/
def reserveLoopU : LStm R α :=
  .ite (fun l => l.i == l.count) .brk .skip ;;
  .acc ((port R α).osAllocate fun v n => { v with n := n }) ;;
  .fn (port R α).deallocateU ;;
  .set (fun l => { l with i := l.i + 1 })

/-- `reserve_unsafe( n )` (queue.hpp:280-283) with `reserve< false >( count )` (freelist.hpp:68-75). -/
def reserveUnsafe : LStm R α :=
  .set (fun l => { l with i := 0 }) ;;
  .forever reserveLoopU ;;
  .set (fun l => { l with result := .reserved }) ;;
  .ret

/-- The unsynchronized member functions, under the names of the thread-safe ones. `unsynchronized_push` uses `operator->` and `get_ptr` of `tagged_ptr`, which
`tagged_index` does not have: queues of fixed size have no `unsynchronized_push`. -/
def unsyncProgram (R : Rep) (α : Type) : Program (SSt R.K α) (Loc R.K α) (SChoice R.K (Op α) α) (Op α) (Ret α) where
  body _
    | .push false v => if R.fixed then none else some ({ Loc.init R.zero with t := some v }, call unsynchronizedPush)
    | .pop => some (Loc.init R.zero, call unsynchronizedPop)
    | .reserve k => if R.fixed then none else some ({ Loc.init R.zero with count := k }, call reserveUnsafe)
    | _ => none
  result l := l.result

/-! ### Correspondence with the machine on words -/

/-- Within `construct` in `unsynchronized_push`. -/
def ctorRestU : LRest R α := .fn :: .stm (unsynchronizedPush.drop 1) :: base

/-- Within the loop of `unsynchronized_push`. -/
def pushRestU : LRest R α := .loop pushLoopU :: base

/-- Within the loop of `unsynchronized_pop`. -/
def popRestU : LRest R α := .loop popLoopU :: base

/-- Within the loop of `reserve`. -/
def reserveRestU : LRest R α := .loop reserveLoopU :: .stm (reserveUnsafe.drop 2) :: base

/-- What follows the call of `destruct`. -/
def poppedRestU : LRest R α := .stm (takeFirstU.drop 5) :: popRestU

/-- Where `deallocate( n )` was called from. -/
inductive FreeCtxU : FreeK α → Loc R.K α → LRest R α → Prop where
  | pop {l v} : l.ret = some v → FreeCtxU (.pop v) l (.fn :: poppedRestU)
  | rsv {l k} : l.i + (k + 1) = l.count → FreeCtxU (.rsv k) l (.stm (reserveLoopU.drop 3) :: reserveRestU)

/-- What follows `tail_.store`. -/
inductive SwingCtxU : TailK → Loc R.K α → LRest R α → Prop where
  | retryPush {l n} : l.n = some n → SwingCtxU (.retryPush n) l pushRestU
  | donePush {l} : SwingCtxU .donePush l (.stm (appendNodeU.drop 4) :: pushRestU)
  | retryPop {l} : SwingCtxU .retryPop l popRestU

/-- Places in the text and program counters of the machine on words. -/
inductive AtU : Loc R.K α → LRest R α → SPC R.K α → Prop where
  | alloc {v l k a} : l.t = some v →
      AllocUAt (port R α) false (.stm (.ite (fun l => l.fl.node.isSome) nodeCtor .skip) :: ctorRestU) l k a → AtU l k (.alloc false v a)
  | constr {v l n} : l.t = some v → l.fl.node = some n →
      AtU l (.stm (.acc ((port R α).ctor fun l => l.t)) :: .stm (nodeCtor.drop 1) :: ctorRestU) (.constr false v n)
  | nload {v l n} : l.fl.node = some n → AtU l (.stm (.acc ctorLoad) :: .stm (nodeCtor.drop 2) :: ctorRestU) (.nload false v n)
  | nstore {v l n o} : l.fl.node = some n → l.new_next = R.K.pack (R.K.hnd none) (R.K.next (R.K.tag o)) →
      AtU l (.stm (.acc ctorStore) :: ctorRestU) (.nstore false v n o)
  | pTail {l n} : l.n = some n →
      AtU l (.stm (.acc (loadTail fun l x => { l with tail := x })) :: .stm (pushLoopU.drop 1) :: pushRestU) (.pTail n)
  | pNext {l n T} : l.n = some n → l.tail = T →
      AtU l (.stm (.acc (loadNext (fun l => R.K.node (R.K.ptr l.tail.v)) fun _ _ _ => false)) :: .stm (pushLoopU.drop 2) :: pushRestU) (.pNext n T)
  | pCas {l n T N x} : l.n = some n → l.tail = T → R.K.node (R.K.ptr T.v) = some x →
      l.new_tail_next = R.K.pack (R.K.hnd (some n)) (R.K.next (R.K.tag N.v)) →
      AtU l (.stm (.acc storeNext) :: .stm (appendNodeU.drop 2) :: pushRestU) (.pCas n T N)
  | swing {l k T y ctx} : SwingCtxU k l ctx → l.new_tail = R.K.pack y (R.K.next (R.K.tag T.v)) →
      AtU l (.stm (.acc storeTail) :: ctx) (.swing k T y)
  | cHead {l} : AtU l (.stm (.acc (loadHead fun l x => { l with head := x })) :: .stm (popLoopU.drop 1) :: popRestU) .cHead
  | cTail {l H} : l.head = H → l.head_ptr = R.K.node (R.K.ptr H.v) →
      AtU l (.stm (.acc (loadTail fun l x => { l with tail := x })) :: .stm (popLoopU.drop 3) :: popRestU) (.cTail H)
  | cNext {l H T} : l.head = H → l.head_ptr = R.K.node (R.K.ptr H.v) → l.tail = T →
      AtU l (.stm (.acc (loadNext (fun l => l.head_ptr) fun _ _ _ => false)) :: .stm (popLoopU.drop 4) :: popRestU) (.cNext H T)
  | cData {l H y x nx} : l.head = H → R.K.node (R.K.ptr H.v) = some x → l.next_ptr = some y → nx = R.K.ptr l.next.v →
      AtU l (.stm (.acc copyPayload) :: .stm (takeFirstU.drop 2) :: popRestU) (.cData H y nx)
  | cCas {l H x nx v} : l.head = H → R.K.node (R.K.ptr H.v) = some x → l.new_head = R.K.pack nx (R.K.next (R.K.tag H.v)) → l.ret = some v →
      AtU l (.stm (.acc storeHead) :: .stm (takeFirstU.drop 4) :: popRestU) (.cCas H nx v)
  | cDestroy {l n v} : l.fl.n = some n → l.ret = some v →
      AtU l (.stm (.acc dtor) :: .stm (.fn (port R α).deallocateU) :: .fn :: poppedRestU) (.cDestroy n v)
  | free {l c n d ctx k} : FreeCtxU c l ctx → DeallocUAt (port R α) n ctx l k d → AtU l k (.free c n d)
  | rsv {l k} : l.i + (k + 1) = l.count →
      AtU l (.stm (.acc ((port R α).osAllocate fun v n => { v with n := n })) :: .stm (reserveLoopU.drop 2) :: reserveRestU) (.rsv (k + 1))
  | fin {l r} : l.result = r → (ho : Output l := by simp [Output, *]) → AtU l [] (.ret r)

/-- The copies of shared words that a thread has made are up to date. -/
def NowU (R : Rep) (s : SSt R.K α) : SPC R.K α → Prop
  | .alloc _ _ a => aNow s.mem a
  | .free _ _ d => dNow s.mem d
  | .pNext _ T | .swing _ T _ => s.tailSnap = T
  | .pCheck _ T N | .pCas _ T N => s.tailSnap = T ∧ ∀ x, R.K.node (R.K.ptr T.v) = some x → s.nextSnap x = N
  | .cTail H | .cData H _ _ | .cCas H _ _ => s.headSnap = H
  | .cNext H T | .cCheck H T _ => s.headSnap = H ∧ s.tailSnap = T
  | _ => True

/-- Steps of a thread that executes unsynchronized functions: no failures of compare-exchange. -/
def okU (R : Rep) (s : SSt R.K α) (p : SPC R.K α) (ch : SChoice R.K (Op α) α) : Prop := sokFresh R s p ch ∧ ch ≠ .spur

theorem NowU.spBranch {s : SSt R.K α} {n T N} (h : NowU R s (.pCheck n T N)) : NowU R s (spBranch n T N) := by
  unfold Queue.spBranch
  split
  · exact h
  · exact h.1

theorem NowU.scBranch {s : SSt R.K α} {H T N} (h : NowU R s (.cCheck H T N)) : NowU R s (scBranch H T N) := by
  unfold Queue.scBranch
  repeat' split
  · trivial
  · exact h.2
  · trivial
  · exact h.1

theorem NowU.start {s : SSt R.K α} {o p} (h : sstart R o = some p) : NowU R s p := by
  cases o <;> simp only [sstart] at h
  all_goals repeat' split at h
  all_goals simp at h
  all_goals subst h
  all_goals trivial

/-- A thread that is alone keeps its copies up to date. -/
theorem NowU.step {t : Nat} {s s' : SSt R.K α} {p p' ch e} (h : NowU R s p)
    (hs : ststep R t s p ch = some (s', p', e)) : NowU R s' p' := by
  cases p with
  | alloc b v a =>
    simp only [ststep] at hs
    cases hx : saStep R b s.mem a ch with
    | none => rw [hx] at hs; cases hs
    | some x =>
      rw [hx] at hs
      obtain ⟨m, r⟩ := x
      cases r <;> simp at hs
      · obtain ⟨rfl, rfl, rfl⟩ := hs; exact aNow.step (show aNow s.mem a from h) hx
      all_goals obtain ⟨rfl, rfl, rfl⟩ := hs; trivial
  | free k n d =>
    simp only [ststep] at hs
    cases hx : sdStep R s.mem n d ch with
    | none => rw [hx] at hs; cases hs
    | some x =>
      rw [hx] at hs
      obtain ⟨m, r⟩ := x
      cases r <;> simp at hs
      · obtain ⟨rfl, rfl, rfl⟩ := hs; cases k <;> trivial
      · obtain ⟨rfl, rfl, rfl⟩ := hs; exact dNow.step (show dNow s.mem d from h) hx
  | idle =>
    cases ch <;> simp [ststep] at hs
    exact .start hs.1
  | pNext n T =>
    simp only [ststep] at hs
    split at hs
    · cases hs; trivial
    · rename_i x hx
      cases ch <;> simp at hs
      · obtain ⟨rfl, rfl, rfl⟩ := hs
        exact ⟨h, fun y hy => by rw [hx] at hy; cases hy; rfl⟩
      · exact (hs.1 (congrArg SSnap.ver h)).elim
  | pCheck n T N =>
    cases ch <;> simp [ststep] at hs
    split at hs <;> cases hs
    · exact h.spBranch
    · trivial
  | cTail H =>
    cases ch <;> simp [ststep] at hs
    obtain ⟨rfl, rfl, rfl⟩ := hs
    exact ⟨h, rfl⟩
  | cCheck H T N =>
    cases ch <;> simp [ststep] at hs
    split at hs <;> cases hs
    · exact h.scBranch
    · trivial
  | swing k T y =>
    cases ch <;> simp [ststep] at hs
    obtain ⟨rfl, rfl, rfl⟩ := hs
    cases k <;> trivial
  | pCas n T N =>
    cases ch <;> simp only [ststep] at hs
    all_goals try cases hs
    all_goals repeat' split at hs
    all_goals try cases hs
    all_goals first | trivial | exact h.1
  | rsv k =>
    cases k <;> cases ch <;> simp only [ststep] at hs
    all_goals try cases hs
    all_goals try trivial
    split at hs <;> cases hs
    trivial
  | _ =>
    cases ch <;> simp only [ststep] at hs
    all_goals try cases hs
    all_goals repeat' split at hs
    all_goals try cases hs
    all_goals first | trivial | exact h

theorem AtU.head {l : Loc R.K α} {k p} (h : AtU l k p) : ctl l k = none := by
  cases h with
  | alloc _ h => exact h.head
  | free _ h => exact h.head
  | _ => rfl

abbrev GoalU (t : Nat) (s : SSt R.K α) (n : Nat) (l : Loc R.K α) (k : LRest R α) (p : SPC R.K α) : Prop :=
  Later (smach α R) (okU R) t s (Leads n AtU l k) p

variable {t : Nat} {s : SSt R.K α}

theorem pushU_loop {l : Loc R.K α} {n} (h1 : l.n = some n) : Leads 20 AtU l pushRestU (.pTail n) := by
  leads
  exact .pTail h1

theorem popU_loop {l : Loc R.K α} : Leads 20 AtU l popRestU .cHead := by
  leads
  exact .cHead

theorem reserveU_loop {l : Loc R.K α} {k} (h1 : l.i + k = l.count) : GoalU t s 20 l (.stm reserveLoopU :: reserveRestU) (.rsv k) := by
  cases k with
  | zero =>
    refine .one (ch := .go) (p' := .ret .reserved) ⟨trivial, by simp⟩ rfl ?_
    have h2 : l.i = l.count := by omega
    leads
    exact .fin rfl
  | succ k =>
    have h2 : ¬ l.i = l.count := by omega
    refine .now ?_
    leads
    exact .rsv h1

/-- `construct` returned null. -/
theorem pushU_null {l : Loc R.K α} (hn : l.fl.node = none) :
    Leads 20 AtU l (.stm (.ite (fun l => l.fl.node.isSome) nodeCtor .skip) :: ctorRestU) (.ret (.pushed false)) := by
  leads
  exact .fin rfl

/-- An exception leaves the function. -/
theorem throwU {l : Loc R.K α} : Leads 20 AtU l (toHandler base) (.ret .threw) := by
  leads
  exact .fin rfl

theorem FreeCtxU.same {l l' : Loc R.K α} {c ctx} (h : FreeCtxU c l ctx) (hs : (port R α).Same l l') : FreeCtxU c l' ctx := by
  obtain ⟨x, rfl⟩ := hs
  cases h with
  | pop h1 => exact .pop h1
  | rsv h1 => exact .rsv h1

/-- `deallocate` returned. -/
theorem freeU_end {l : Loc R.K α} {c ctx} (h : FreeCtxU c l ctx) : GoalU t s 40 l ctx (sonFreed c) := by
  cases h with
  | pop h1 =>
    refine .now ?_
    leads
    exact .fin (by simp [h1])
  | rsv h1 =>
    refine Later.reach (a := 2) (l' := { l with i := l.i + 1 }) ?_ (reserveU_loop (by simp; omega))
    exact .step rfl (.step rfl .refl)

/-- `construct` returned a node. -/
theorem pushU_got {l : Loc R.K α} {v n} (h : l.t = some v) (hn : l.fl.node = some n) :
    Leads 20 AtU l (.stm (.ite (fun l => l.fl.node.isSome) nodeCtor .skip) :: ctorRestU) (.constr false v n) := by
  leads
  exact .constr h hn

theorem swingU_end {l : Loc R.K α} {k ctx} (h : SwingCtxU k l ctx) : Leads 20 AtU l ctx (sonSwung k) := by
  cases h with
  | retryPush h1 => exact pushU_loop h1
  | donePush =>
    leads
    exact .fin rfl
  | retryPop => exact popU_loop

theorem accessU (hf : R.Faithful) (t : Nat) (s : SSt R.K α) (l : Loc R.K α) (a : LAcc R α) (k : LRest R α) (p : SPC R.K α)
    (ch : SChoice R.K (Op α) α) (s' : SSt R.K α) (l' : Loc R.K α) (f : Flow) (hI : NowU R s p) (hat : AtU l (.stm (.acc a) :: k) p)
    (_ : a.ok s l ch = true) (hr : a.run t s l ch = some (s', l', f)) :
    ∃ ch' p', okU R s p ch' ∧ ststep R t s p ch' = some (s', p', none) ∧ f.ifUb (p' = .err) (GoalU t s' 60 l' (f.rest k) p') := by
  have hM := hf.pos
  generalize hk : Item.stm (.acc a) :: k = K at hat
  cases hat with
  | @alloc v l K a' hc ha =>
    subst hk
    obtain ⟨m, r, h1, h2, rfl, h4, h5, h6⟩ := allocU_access hf ha hI hr
    have hsp : ch ≠ .spur := by
      rintro rfl
      simp only [NowU] at hI
      cases ha <;> simp [Port.loadPool, Port.osAllocate, Port.readLink, Port.storePool, Port.acc, *] at hr
    have hc' := (same_t h4).trans hc
    cases r with
    | more a₁ =>
      obtain ⟨rfl, i, l₁, k₁, hi, h8, h9, h10⟩ := h6
      refine ⟨ch, .alloc false v a₁, ⟨h2, hsp⟩, by simp only [ststep]; erw [h1]; rfl, ?_⟩
      rcases h10 with h10 | ⟨rfl, h11, o, rfl, h12, h13⟩
      · exact .now (Leads.reach h9 (Leads.here (n := 0) (.alloc ((same_t h8).trans hc') h10)) (by omega))
      · refine .one (ch := .go) (p' := .ret (.pushed false)) ⟨trivial, by simp⟩ (by simp [smach, ststep, saStep, h12, h13]) ?_
        exact Leads.reach h9 (pushU_null h11) (by omega)
    | got n =>
      obtain ⟨rfl, i, l₁, hi, h8, h9, h10⟩ := h6
      refine ⟨ch, .constr false v n, ⟨h2, hsp⟩, by simp only [ststep]; erw [h1]; rfl, ?_⟩
      exact .now (Leads.reach h9 (pushU_got ((same_t h8).trans hc') h10) (by omega))
    | null => exact h6.elim
    | badAlloc =>
      obtain ⟨rfl, h8⟩ := h6
      refine ⟨ch, .ret .threw, ⟨h2, hsp⟩, by simp only [ststep]; erw [h1]; rfl, .now ?_⟩
      simp only [Flow.rest, h8]
      exact throwU.mono (by decide)
  | @constr v l n ha hn =>
    cases hk
    simp only [Port.ctor, port, hn, ha] at hr
    cases ch <;> simp at hr
    · by_cases hd : (s.mem.data n).isSome
      · simp [hd] at hr
        obtain ⟨rfl, rfl, rfl⟩ := hr
        exact ⟨.go, .err, ⟨trivial, by simp⟩, by simp [ststep, hd], rfl⟩
      · simp [hd] at hr
        obtain ⟨rfl, rfl, rfl⟩ := hr
        refine ⟨.go, .nload false v n, ⟨trivial, by simp⟩, by simp [ststep, hd], .now ?_⟩
        simp only [Flow.rest]
        leads
        exact .nload hn
    · obtain ⟨rfl, rfl, rfl⟩ := hr
      exact ⟨.throw, _, ⟨trivial, by simp⟩, rfl, .now (throwU.mono (by decide))⟩
  | @nload v l n hn =>
    cases hk
    simp only [ctorLoad, hn] at hr
    cases ch <;> simp at hr
    obtain ⟨rfl, rfl, rfl⟩ := hr
    refine ⟨.go, _, ⟨trivial, by simp⟩, rfl, .now ?_⟩
    simp only [Flow.rest]
    leads
    exact .nstore hn rfl
  | @nstore v l n o hn hx =>
    cases hk
    simp only [ctorStore, hn, hx] at hr
    cases ch <;> simp at hr
    obtain ⟨rfl, rfl, rfl⟩ := hr
    refine ⟨.go, _, ⟨trivial, by simp⟩, rfl, .now ?_⟩
    simp only [Flow.rest]
    leads
    exact .pTail hn
  | @pTail l n h1 =>
    cases hk
    simp only [loadTail] at hr
    cases ch <;> simp at hr
    obtain ⟨rfl, rfl, rfl⟩ := hr
    refine ⟨.go, _, ⟨trivial, by simp⟩, rfl, .now ?_⟩
    simp only [Flow.rest]
    leads
    exact .pNext h1 rfl
  | @pNext l n T h1 h3 =>
    cases hk
    subst h3
    rcases hx : R.K.node (R.K.ptr l.tail.v) with _ | x
    · simp only [loadNext, hx] at hr
      cases hr
      exact ⟨.go, .err, ⟨trivial, by simp⟩, by simp [ststep, hx], rfl⟩
    · simp only [loadNext, hx] at hr
      cases ch <;> simp at hr
      obtain ⟨rfl, rfl, rfl⟩ := hr
      have hv : s.tail = l.tail.v := congrArg SSnap.v hI
      have hfr : s.tailVer < l.tail.ver + R.M := by
        have := congrArg SSnap.ver hI
        simp only [SSt.tailSnap] at this
        omega
      refine ⟨.go, .pCheck n l.tail (s.nextSnap x), ⟨trivial, by simp⟩, by simp only [ststep, hx],
        .one (ch := .go) (p' := spBranch n l.tail (s.nextSnap x)) ⟨hfr, by simp⟩ (by simp [smach, ststep, hv]) ?_⟩
      rcases hy : R.K.node (R.K.ptr (s.nextSnap x).v) with _ | y
      · simp only [Flow.rest, spBranch, hy]
        leads
        exact .pCas h1 rfl hx (by simp [h1])
      · simp only [Flow.rest, spBranch, hy]
        leads
        exact .swing (.retryPush h1) (by simp [hy])
  | @pCas l n T N x h1 h3 hx h6 =>
    cases hk
    subst h3
    have h7 := hI.2 x hx
    have hv : s.mem.next x = N.v := congrArg SSnap.v h7
    have hfr : sfresh R s (.pCas n l.tail N) := by
      intro y hy
      rw [hx] at hy
      cases hy
      have := congrArg SSnap.ver h7
      simp only [SSt.nextSnap] at this
      omega
    simp only [storeNext, hx, h6] at hr
    cases ch <;> simp at hr
    obtain ⟨rfl, rfl, rfl⟩ := hr
    refine ⟨.go, .swing .donePush l.tail (R.K.hnd (some n)), ⟨hfr, by simp⟩, by simp [ststep, hv, hx], .now ?_⟩
    simp only [Flow.rest]
    leads
    exact .swing .donePush (by simp [h1])
  | @swing l c T y ctx h1 h3 =>
    cases hk
    have hv : s.tail = T.v := congrArg SSnap.v hI
    have hfr : s.tailVer < T.ver + R.M := by
      have := congrArg SSnap.ver hI
      simp only [SSt.tailSnap] at this
      omega
    simp only [storeTail, h3] at hr
    cases ch <;> simp at hr
    obtain ⟨rfl, rfl, rfl⟩ := hr
    exact ⟨.go, _, ⟨hfr, by simp⟩, by simp only [ststep, SSt.swingTail, hv, if_true], .now ((swingU_end h1).mono (by decide))⟩
  | @cHead l =>
    cases hk
    simp only [loadHead] at hr
    cases ch <;> simp at hr
    obtain ⟨rfl, rfl, rfl⟩ := hr
    refine ⟨.go, _, ⟨trivial, by simp⟩, rfl, .now ?_⟩
    simp only [Flow.rest]
    leads
    exact .cTail rfl rfl
  | @cTail l H h1 h2 =>
    cases hk
    simp only [loadTail] at hr
    cases ch <;> simp at hr
    obtain ⟨rfl, rfl, rfl⟩ := hr
    refine ⟨.go, _, ⟨trivial, by simp⟩, rfl, .now ?_⟩
    simp only [Flow.rest]
    leads
    exact .cNext h1 h2 rfl
  | @cNext l H T h1 h2 h3 =>
    cases hk
    subst h1 h3
    rcases hx : R.K.node (R.K.ptr l.head.v) with _ | x
    · rw [hx] at h2
      simp only [loadNext, h2] at hr
      cases hr
      exact ⟨.go, .err, ⟨trivial, by simp⟩, by simp [ststep, hx], rfl⟩
    · simp only [loadNext, h2, hx] at hr
      cases ch <;> simp at hr
      obtain ⟨rfl, rfl, rfl⟩ := hr
      have hv : s.head = l.head.v := congrArg SSnap.v hI.1
      have hfr : s.headVer < l.head.ver + R.M := by
        have := congrArg SSnap.ver hI.1
        simp only [SSt.headSnap] at this
        omega
      refine ⟨.go, .cCheck l.head l.tail (s.nextSnap x), ⟨trivial, by simp⟩, by simp only [ststep, hx],
        .one (ch := .go) (p' := scBranch l.head l.tail (s.nextSnap x)) ⟨hfr, by simp⟩ (by simp [smach, ststep, hv]) ?_⟩
      by_cases ht : R.K.ptr l.head.v = R.K.ptr l.tail.v
      · rcases hy : R.K.node (R.K.ptr (s.nextSnap x).v) with _ | y
        · simp only [Flow.rest, scBranch, ht, if_true, hy]
          leads
          exact .fin rfl
        · simp only [Flow.rest, scBranch, ht, if_true, hy]
          leads
          exact .swing .retryPop rfl
      · rcases hy : R.K.node (R.K.ptr (s.nextSnap x).v) with _ | y
        · simp only [Flow.rest, scBranch, ht, if_false, hy]
          refine Leads.step rfl (Leads.step rfl (Leads.ff (by simp [ht]) (Leads.step rfl (Leads.tt (by simp [hy]) (Leads.step rfl
            (popU_loop.mono ?_))))))
          decide
        · simp only [Flow.rest, scBranch, ht, if_false, hy]
          leads
          exact .cData rfl hx hy rfl
  | @cData l H y x nx h1 h2 h3 h4 =>
    cases hk
    subst h1 h4
    have hver : s.headVer = l.head.ver := congrArg SSnap.ver hI
    simp only [copyPayload, h3, hver] at hr
    cases ch <;> simp at hr
    · rcases hd : s.mem.data y with _ | v
      · simp [hd] at hr
        obtain ⟨rfl, rfl, rfl⟩ := hr
        exact ⟨.go, .err, ⟨trivial, by simp⟩, by simp [ststep, hd, hver], rfl⟩
      · simp [hd] at hr
        obtain ⟨rfl, rfl, rfl⟩ := hr
        refine ⟨.go, .cCas l.head (R.K.ptr l.next.v) v, ⟨trivial, by simp⟩, by simp only [ststep, hd], .now ?_⟩
        simp only [Flow.rest]
        leads
        exact .cCas rfl h2 rfl rfl
    · obtain ⟨rfl, rfl, rfl⟩ := hr
      exact ⟨.throw, _, ⟨trivial, by simp⟩, rfl, .now (throwU.mono (by decide))⟩
  | @cCas l H x nx v h1 h2 h3 h4 =>
    cases hk
    subst h1
    have hv : s.head = l.head.v := congrArg SSnap.v hI
    have hfr : s.headVer < l.head.ver + R.M := by
      have := congrArg SSnap.ver hI
      simp only [SSt.headSnap] at this
      omega
    simp only [storeHead, h3] at hr
    cases ch <;> simp at hr
    obtain ⟨rfl, rfl, rfl⟩ := hr
    refine ⟨.go, .cDestroy x v, ⟨hfr, by simp⟩, by simp [ststep, hv, h2], .now ?_⟩
    simp only [Flow.rest]
    leads
    exact .cDestroy h2 h4
  | @cDestroy l n v h1 h2 =>
    cases hk
    simp only [dtor, h1] at hr
    cases ch <;> simp at hr
    obtain ⟨rfl, rfl, rfl⟩ := hr
    refine ⟨.go, _, ⟨trivial, by simp⟩, rfl, .now ?_⟩
    simp only [Flow.rest]
    leads
    exact .free (.pop h2) (.load h1)
  | @free l c n d ctx K hc hd =>
    subst hk
    obtain ⟨m, r, h1, rfl, h4, h5, rfl, h6⟩ := deallocU_access hd hI hr
    have hsp : ch ≠ .spur := by
      rintro rfl
      simp only [NowU] at hI
      cases hd <;> simp [Port.loadPool, Port.setLink, Port.storePool, Port.acc, *] at hr
    cases r with
    | some d' =>
      obtain ⟨i, l₁, k₁, hi, h8, h9, h10⟩ := h6
      refine ⟨ch, .free c n d', ⟨trivial, hsp⟩, by simp only [ststep]; erw [h1]; rfl,
        .now (Leads.reach h9 (Leads.here (n := 0) (.free ((hc.same h4).same h8) h10)) (by omega))⟩
    | none =>
      exact ⟨ch, sonFreed c, ⟨trivial, hsp⟩, by simp only [ststep]; erw [h1]; rfl, Later.reach h6 (freeU_end (hc.same h4))⟩
  | @rsv l k h1 =>
    cases hk
    simp only [Port.osAllocate, Port.acc, port] at hr
    cases ch <;> simp at hr
    · by_cases hl : s.mem.nalloc < R.limit <;> simp [hl] at hr
      obtain ⟨rfl, rfl, rfl⟩ := hr
      refine ⟨.go, .free (.rsv k) s.mem.nalloc .load, ⟨trivial, by simp⟩, by simp [ststep, hl], .now ?_⟩
      simp only [Flow.rest]
      leads
      exact .free (.rsv h1) (.load rfl)
    · obtain ⟨rfl, rfl, rfl⟩ := hr
      refine ⟨.throw, .ret .threw, ⟨trivial, by simp⟩, rfl, .now ?_⟩
      simp only [Flow.rest]
      leads
      exact .fin rfl
  | fin => simp at hk

/-- The beginning of a call. -/
theorem callU_start (t : Nat) (s : SSt R.K α) (o : Op α) (l : Loc R.K α) (a : LStm R α) (hb : (unsyncProgram R α).body t o = some (l, a)) :
    ∃ ch p, okU R s .idle ch ∧ ststep R t s .idle ch = some (s, p, some (.inv t o)) ∧ GoalU t s 60 l [.stm a] p := by
  suffices h : ∃ p, sstart R o = some p ∧ GoalU t s 60 l [.stm a] p by
    obtain ⟨p, hp, hg⟩ := h
    exact ⟨.call o, p, ⟨trivial, by simp⟩, by simp [ststep, hp], hg⟩
  cases o with
  | push b v =>
    cases b <;> by_cases hfx : R.fixed = true <;> simp [unsyncProgram, hfx] at hb
    obtain ⟨rfl, rfl⟩ := hb
    refine ⟨_, rfl, .now ?_⟩
    leads
    exact .alloc rfl .load
  | pop =>
    simp [unsyncProgram] at hb
    obtain ⟨rfl, rfl⟩ := hb
    refine ⟨_, rfl, .now ?_⟩
    leads
    exact .cHead
  | empty => simp [unsyncProgram] at hb
  | reserve k =>
    by_cases hfx : R.fixed = true <;> simp [unsyncProgram, hfx] at hb
    obtain ⟨rfl, rfl⟩ := hb
    refine ⟨.rsv k, by simp [sstart, hfx], ?_⟩
    refine Later.reach (a := 6) (l' := { Loc.init R.zero with count := k }) ?_ (reserveU_loop (by simp [Loc.init]))
    exact .step rfl (.step rfl (.step rfl (.step rfl (.step rfl (.step rfl .refl)))))

/-- The unsynchronized text, executed by a thread alone, refines the machine on words. -/
theorem refinesU (hf : R.Faithful) :
    RefinesAlone (unsyncProgram R α) (smach α R) (fun _ _ => True) (okU R) .err (fun _ => NowU R) AtU 60 where
  call t s o l a hb _ := callU_start t s o l a hb
  head _ _ _ h := h.head
  access := accessU hf
  fin l p h := by
    generalize hk : ([] : LRest R α) = K at h
    cases h with
    | fin hr => rw [← hr]; rfl
    | alloc _ h => exact (h.ne hk.symm).elim
    | free _ h => exact (h.ne hk.symm).elim
    | _ => simp at hk
  res t s r := ⟨.go, ⟨trivial, by simp⟩, rfl⟩
  env t s p ch s' h := by simp [unsyncProgram] at h

end Verif.Queue.Code
