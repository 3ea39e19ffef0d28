import Verif.TextUnsync
import Verif.Stack.TextProps

/-!
# The unsynchronized member functions of `include/boost/lockfree/stack.hpp` as structured programs (C58)

`unsynchronized_push`, `unsynchronized_push(begin, end)`, `unsynchronized_pop`, `reserve_unsafe`, line by line, on stored words, with all
exceptions that may be thrown. The functions that have a template parameter `ThreadSafe` are given here for the value `false`; those of
`Stack/Text` are for `true`.
-/

namespace Verif.Stack.Code
open Lin Text

variable {α : Type} {R : Rep}

/-- `tos.store( new_tos )`; `removes`: see `casTos`. -/
def storeTos (removes : Bool) : LAcc R α where
  run _ s l
    | .go => some ({ s with tos := l.new_tos, tosVer := if removes then s.tosVer + 1 else s.tosVer }, l, .next)
    | _ => none

/-- `pool.template construct< false, Bounded >( arg )` (freelist.hpp:86-93, 450-460; stack.hpp:85-87). -/
def constructU (b : Bool) : LStm R α :=
  .fn (
    .fn ((port R α).allocateU b) ;;
    .ite (fun l => l.fl.node.isSome)
      (.acc ((port R α).ctor fun l => l.arg))
      .skip)

/-- `pool.template destruct< false >( e )`. -/
def destructU (e : Loc R.K α → Option Nat) : LStm R α :=
  .set (fun l => { l with fl := { l.fl with n := e l } }) ;;
  .fn (port R α).destructU

/-- `link_nodes_unsafe( new_top_node, end_node )` (stack.hpp:274-282). -/
def linkNodesUnsafe : LStm R α :=
  .acc (loadTos .relaxed) ;;
  .set (fun l => { l with new_tos := R.K.pack (R.K.hnd l.new_top_node) (R.K.tag l.old_tos.v) }) ;;
  .acc (setNext (fun l => l.end_node) (fun l => R.K.ptr l.old_tos.v)) ;;
  .acc (storeTos false)

/-- `unsynchronized_push( v )` (stack.hpp:417-425). -/
def unsynchronizedPush : LStm R α :=
  constructU false ;;
  .set (fun l => { l with newnode := l.fl.node }) ;;
  .ite (fun l => l.newnode.isNone)
    (.set (fun l => { l with result := .pushed false }) ;;
     .ret)
    .skip ;;
  .set (fun l => { l with new_top_node := l.newnode, end_node := l.newnode }) ;;
  .fn linkNodesUnsafe ;;
  .set (fun l => { l with result := .pushed true }) ;;
  .ret

/-- The loop of `prepare_node_list` (stack.hpp:300-306). -/
def prepareLoopU : LStm R α :=
  .ite (fun l => l.it.isEmpty) .brk .skip ;;
  .set (fun l => { l with arg := l.it.head? }) ;;
  constructU false ;;
  .set (fun l => { l with newnode := l.fl.node }) ;;
  .ite (fun l => l.newnode.isNone) .brk .skip ;;
  .acc (setNext (fun l => l.newnode) (fun l => R.K.hnd l.new_top_node)) ;;
  .set (fun l => { l with new_top_node := l.newnode }) ;;
  .set (fun l => { l with it := l.it.tail })

/-- The loop of the `catch` block of `prepare_node_list` (stack.hpp:310-314). -/
def undoLoopU : LStm R α :=
  .ite (fun l => l.current_node.isNone) .brk .skip ;;
  .acc (readNext (fun l => l.current_node) (fun l h => { l with next := R.K.node h })) ;;
  destructU (fun l => l.current_node) ;;
  .set (fun l => { l with current_node := l.next })

/-- The `catch` block of `prepare_node_list` (stack.hpp:308-316). -/
def undoU : LStm R α :=
  .set (fun l => { l with current_node := l.new_top_node }) ;;
  .forever undoLoopU ;;
  .rethrow

/-- `prepare_node_list< false, false >( begin, end, ret )` (stack.hpp:284-321). -/
def prepareNodeListU : LStm R α :=
  .set (fun l => { l with it := l.range }) ;;
  .set (fun l => { l with arg := l.it.head?, it := l.it.tail }) ;;
  constructU false ;;
  .set (fun l => { l with end_node := l.fl.node }) ;;
  .ite (fun l => l.end_node.isNone)
    (.set (fun l => { l with ret := l.range, new_top_node := none }) ;;
     .ret)
    .skip ;;
  .set (fun l => { l with new_top_node := l.end_node }) ;;
  .acc (setNext (fun l => l.end_node) (fun _ => R.K.hnd none)) ;;
  .tryCatch
    (.forever prepareLoopU)
    undoU ;;
  .set (fun l => { l with ret := l.it })

/-- `unsynchronized_push( begin, end )` (stack.hpp:435-446); the result is `ret - begin`. -/
def unsynchronizedPushRange : LStm R α :=
  .fn prepareNodeListU ;;
  .ite (fun l => l.new_top_node.isSome)
    (.fn linkNodesUnsafe)
    .skip ;;
  .set (fun l => { l with result := .count (l.range.length - l.ret.length) }) ;;
  .ret

/-- `unsynchronized_pop( ret )` (stack.hpp:503-520). `copy_payload` is the application of a functor that assigns to `ret`, as in `pop`. -/
def unsynchronizedPop : LStm R α :=
  .acc (loadTos .relaxed) ;;
  .set (fun l => { l with old_tos_pointer := R.K.node (R.K.ptr l.old_tos.v) }) ;;
  .ite (fun l => l.old_tos_pointer.isNone)
    (.set (fun l => { l with result := .popped none }) ;;
     .ret)
    .skip ;;
  .acc (readNext (fun l => l.old_tos_pointer) (fun l h => { l with new_tos_ptr := R.K.node h })) ;;
  .set (fun l => { l with new_tos := R.K.pack (R.K.hnd l.new_tos_ptr) (R.K.next (R.K.tag l.old_tos.v)) }) ;;
  .acc (storeTos true) ;;
  .acc (apply fun l => l.old_tos_pointer) ;;
  destructU (fun l => R.K.node (R.K.ptr l.old_tos.v)) ;;
  .set (fun l => { l with result := .popped l.applied.head? }) ;;
  .ret

/-- The loop of `reserve< false >( count )` (freelist.hpp:70-74). -/
def reserveLoopU : LStm R α :=
  .ite (fun l => l.i == l.count) .brk .skip ;;
  .acc ((port R α).osAllocate fun v n => { v with n := n }) ;;
  .fn (port R α).deallocateU ;;
  .set (fun l => { l with i := l.i + 1 })

/-- `reserve_unsafe( n )` (stack.hpp:236-242) with `reserve< false >( count )` (freelist.hpp:68-75). -/
def reserveUnsafe : LStm R α :=
  .set (fun l => { l with i := 0 }) ;;
  .forever reserveLoopU ;;
  .set (fun l => { l with result := .reserved }) ;;
  .ret

/-- The unsynchronized member functions, under the names of the thread-safe ones. -/
def unsyncProgram (R : Rep) (α : Type) : Program (SSt R.K α) (Loc R.K α) (SChoice R.K (Op α) α) (Op α) (Ret α) where
  body _
    | .push false v => some ({ Loc.init R.zero with arg := some v }, call unsynchronizedPush fun _ => .threw)
    | .pushRange false vs =>
      if R.fixed then none else some ({ Loc.init R.zero with range := vs }, call unsynchronizedPushRange fun _ => .threw)
    | .pop thr =>
      some ({ Loc.init R.zero with thr := if thr then some 0 else none }, call unsynchronizedPop fun l => .popped l.applied.head?)
    | .reserve k => if R.fixed then none else some ({ Loc.init R.zero with count := k }, call reserveUnsafe fun _ => .threw)
    | _ => none
  result l := l.result

/-! ### Correspondence with the machine on words -/

/-- Within `unsynchronized_push( begin, end )`, during `prepare_node_list`. -/
def rangeRestU : LRest R α := .fn :: .stm (unsynchronizedPushRange.drop 1) :: base fun _ => .threw

/-- Within the loop of `prepare_node_list`. -/
def prepareRestU : LRest R α :=
  .loop prepareLoopU :: .handler undoU :: .stm (prepareNodeListU.drop 8) :: rangeRestU

/-- Within the `catch` block of `prepare_node_list`. -/
def undoRestU : LRest R α := .loop undoLoopU :: .stm .rethrow :: .stm (prepareNodeListU.drop 8) :: rangeRestU

/-- Where `construct` was called from. -/
inductive PushCtxU : PushK α → Loc R.K α → LRest R α → Prop where
  | one {l v} : l.arg = some v → PushCtxU (.one v) l (.stm (unsynchronizedPush.drop 1) :: base fun _ => .threw)
  | first {l v rest} : l.arg = some v → l.range = v :: rest → l.it = rest →
      PushCtxU (.range [] none v rest) l (.stm (prepareNodeListU.drop 3) :: rangeRestU)
  | more {l v rest acc top e} : l.arg = some v → l.range.length = acc.length + (rest.length + 1) → l.it = v :: rest →
      l.new_top_node = some top → l.end_node = some e →
      PushCtxU (.range acc (some (top, e)) v rest) l (.stm (prepareLoopU.drop 3) :: prepareRestU)

/-- Where `link_nodes_unsafe` was called from. -/
inductive LinkCtxU : Ret α → Loc R.K α → LRest R α → Prop where
  | one {l} : LinkCtxU (.pushed true) l (.stm (unsynchronizedPush.drop 5) :: base fun _ => .threw)
  | range {l k} : l.range.length - l.ret.length = k → LinkCtxU (.count k) l (.stm (unsynchronizedPushRange.drop 2) :: base fun _ => .threw)

/-- The end of `unsynchronized_pop`. -/
abbrev popBase : LRest R α := base fun l => .popped l.applied.head?

/-- Within the loop of `reserve`. -/
def reserveRestU : LRest R α := .loop reserveLoopU :: .stm (reserveUnsafe.drop 2) :: base fun _ => .threw

/-- Where `deallocate( n )` was called from. -/
inductive FreeCtxU : SFreeK R.K α → Loc R.K α → LRest R α → Prop where
  | pop {l v} : l.applied = [v] → FreeCtxU (.pop v) l (.fn :: .stm (unsynchronizedPop.drop 8) :: popBase)
  | rsv {l k} : l.i + (k + 1) = l.count → FreeCtxU (.rsv k) l (.stm (reserveLoopU.drop 3) :: reserveRestU)
  | undo {l nx} : l.next = R.K.node nx → FreeCtxU (.undo nx) l (.fn :: .stm (undoLoopU.drop 3) :: undoRestU)

/-- The access to the payload of a node that is destroyed, and what follows it. -/
def dtorRestU (k : LRest R α) : LRest R α := .stm (.acc (port R α).dtor) :: .stm (.fn (port R α).deallocateU) :: .fn :: k

/-- Places in the text and program counters of the machine on words. -/
inductive AtU : Loc R.K α → LRest R α → SPC R.K α → Prop where
  | alloc {c l ctx k a} : PushCtxU c l ctx →
      AllocUAt (port R α) false (.stm (.ite (fun l => l.fl.node.isSome) (.acc ((port R α).ctor fun l => l.arg)) .skip) :: .fn :: ctx) l k a →
      AtU l k (.alloc false c a)
  | constr {c l ctx n} : PushCtxU c l ctx → l.fl.node = some n →
      AtU l (.stm (.acc ((port R α).ctor fun l => l.arg)) :: .fn :: ctx) (.constr false c n)
  | rlink0 {l v rest n} : l.end_node = some n → l.new_top_node = some n → l.range = v :: rest → l.it = rest →
      AtU l (.stm (.acc (setNext (fun l => l.end_node) (fun _ => R.K.hnd none))) :: .stm (prepareNodeListU.drop 7) :: rangeRestU)
        (.rlink false [] none v rest n)
  | rlink {l acc top e v rest n} : l.newnode = some n → l.range.length = acc.length + (rest.length + 1) → l.it = v :: rest →
      l.new_top_node = some top → l.end_node = some e →
      AtU l (.stm (.acc (setNext (fun l => l.newnode) (fun l => R.K.hnd l.new_top_node))) :: .stm (prepareLoopU.drop 6) :: prepareRestU)
        (.rlink false acc (some (top, e)) v rest n)
  | lload {l top e r ctx} : LinkCtxU r l ctx → l.new_top_node = some top → l.end_node = some e →
      AtU l (.stm (.acc (loadTos .relaxed)) :: .stm (linkNodesUnsafe.drop 1) :: .fn :: ctx) (.lload top e r)
  | lset {l top e o r ctx} : LinkCtxU r l ctx → l.new_top_node = some top → l.end_node = some e → l.old_tos = o →
      l.new_tos = R.K.pack (R.K.hnd (some top)) (R.K.tag o.v) →
      AtU l (.stm (.acc (setNext (fun l => l.end_node) (fun l => R.K.ptr l.old_tos.v))) :: .stm (.acc (storeTos false)) :: .fn :: ctx)
        (.lset top e o r)
  | lcas {l top e o r ctx} : LinkCtxU r l ctx → l.old_tos = o →
      l.new_tos = R.K.pack (R.K.hnd (some top)) (R.K.tag o.v) →
      AtU l (.stm (.acc (storeTos false)) :: .fn :: ctx) (.lcas top e o r)
  | pload {l thr} : l.thr = (if thr then some 0 else none) → l.applied = [] →
      AtU l (.stm (.acc (loadTos .relaxed)) :: .stm (unsynchronizedPop.drop 1) :: popBase) (.pload thr)
  | ptest {l thr o n} : l.thr = (if thr then some 0 else none) → l.applied = [] → l.old_tos = o → R.K.node (R.K.ptr o.v) = some n →
      l.old_tos_pointer = some n →
      AtU l (.stm (.acc (readNext (fun l => l.old_tos_pointer) (fun l h => { l with new_tos_ptr := R.K.node h }))) ::
        .stm (unsynchronizedPop.drop 4) :: popBase) (.ptest thr o)
  | pcas {l thr o n nx} : l.thr = (if thr then some 0 else none) → l.applied = [] → l.old_tos = o → R.K.node (R.K.ptr o.v) = some n →
      l.old_tos_pointer = some n → l.new_tos = R.K.pack (R.K.hnd (R.K.node nx)) (R.K.next (R.K.tag o.v)) →
      AtU l (.stm (.acc (storeTos true)) :: .stm (unsynchronizedPop.drop 6) :: popBase) (.pcas thr o nx)
  | papply {l thr n} : l.thr = (if thr then some 0 else none) → l.applied = [] → R.K.node (R.K.ptr l.old_tos.v) = some n →
      l.old_tos_pointer = some n →
      AtU l (.stm (.acc (apply fun l => l.old_tos_pointer)) :: .stm (unsynchronizedPop.drop 7) :: popBase) (.papply thr n)
  | pdestroy {l n v} : l.applied = [v] → l.fl.n = some n → AtU l (dtorRestU (.stm (unsynchronizedPop.drop 8) :: popBase)) (.pdestroy n v)
  | free {l c n d ctx k} : FreeCtxU c l ctx → DeallocUAt (port R α) n ctx l k d → AtU l k (.free c n d)
  | rsv {l k} : l.i + (k + 1) = l.count →
      AtU l (.stm (.acc ((port R α).osAllocate fun v n => { v with n := n })) :: .stm (reserveLoopU.drop 2) :: reserveRestU) (.rsv (k + 1))
  | undo {l n} : l.current_node = some n →
      AtU l (.stm (.acc (readNext (fun l => l.current_node) (fun l h => { l with next := R.K.node h }))) :: .stm (undoLoopU.drop 2) :: undoRestU)
        (.undo n)
  | undoD {l n nx} : l.fl.n = some n → l.next = R.K.node nx → AtU l (dtorRestU (.stm (undoLoopU.drop 3) :: undoRestU)) (.undoD n nx)
  | fin {l r} : l.result = r → (ho : Output l := by simp [Output, *]) → AtU l [] (.ret r)

/-- The copies of shared words that a thread has made are up to date; there is no unsynchronized `consume_all`. -/
def NowU (R : Rep) (s : SSt R.K α) : SPC R.K α → Prop
  | .alloc _ _ a => aNow s.mem a
  | .free _ _ d => dNow s.mem d
  | .lset _ _ o _ | .lcas _ _ o _ | .ptest _ o | .pcas _ o _ => s.tosSnap = o
  | .cload _ _ | .ctest _ _ _ | .ccas _ _ _ | .crev _ _ _ | .crevSet _ _ _ _ => False
  | _ => True

theorem NowU.onNull {s : SSt R.K α} (k : PushK α) : NowU R s (sonNull k) := by
  unfold sonNull; split <;> trivial

theorem NowU.onThrow {s : SSt R.K α} (k : PushK α) : NowU R s (sonThrow k) := by
  unfold sonThrow; split <;> trivial

theorem NowU.onFreed {s : SSt R.K α} (k : SFreeK R.K α) : NowU R s (sonFreed k) := by
  unfold sonFreed; repeat' split
  all_goals trivial

theorem NowU.onLinked {s : SSt R.K α} {b acc top e} (vs : List α) : NowU R s (sonLinked b acc top e vs) := by
  unfold sonLinked; split <;> trivial

theorem NowU.start {s : SSt R.K α} {o p} (h : sstart R o = some p) (ho : ∀ rev thr, o ≠ .consumeAll rev thr) : NowU R s p := by
  cases o <;> simp only [sstart] at h
  case consumeAll rev thr => exact (ho rev thr rfl).elim
  all_goals repeat' split at h
  all_goals simp at h
  all_goals subst h
  all_goals trivial

/-- Steps of a thread that executes unsynchronized functions: no failures of compare-exchange, no `consume_all`. -/
def okU (R : Rep) (s : SSt R.K α) (p : SPC R.K α) (ch : SChoice R.K (Op α) α) : Prop :=
  sokFresh R s p ch ∧ ch ≠ .spur ∧ ∀ rev thr, ch ≠ .call (.consumeAll rev thr)

/-- A thread that is alone keeps its copies up to date. -/
theorem NowU.step {t : Nat} {s s' : SSt R.K α} {p p' ch e} (h : NowU R s p) (hok : okU R s p ch)
    (hs : ststep R t s p ch = some (s', p', e)) : NowU R s' p' := by
  cases p with
  | alloc b k a =>
    simp only [ststep] at hs
    cases hx : saStep R b s.mem a ch with
    | none => rw [hx] at hs; cases hs
    | some x =>
      rw [hx] at hs
      obtain ⟨m, r⟩ := x
      cases r <;> simp at hs
      · obtain ⟨rfl, rfl, rfl⟩ := hs; exact aNow.step (show aNow s.mem a from h) hx
      · obtain ⟨rfl, rfl, rfl⟩ := hs; trivial
      · obtain ⟨rfl, rfl, rfl⟩ := hs; exact .onNull k
      · obtain ⟨rfl, rfl, rfl⟩ := hs; exact .onThrow k
  | free k n d =>
    simp only [ststep] at hs
    cases hx : sdStep R s.mem n d ch with
    | none => rw [hx] at hs; cases hs
    | some x =>
      rw [hx] at hs
      obtain ⟨m, r⟩ := x
      cases r <;> simp at hs
      · obtain ⟨rfl, rfl, rfl⟩ := hs; exact .onFreed k
      · obtain ⟨rfl, rfl, rfl⟩ := hs; exact dNow.step (show dNow s.mem d from h) hx
  | idle =>
    cases ch <;> simp [ststep] at hs
    obtain ⟨h1, h2⟩ := hs
    exact .start h1 fun rev thr ho => hok.2.2 rev thr (by rw [ho])
  | cload | ctest | ccas | crev | crevSet => exact h.elim
  | rsv k =>
    cases k <;> cases ch <;> simp only [ststep] at hs
    all_goals try cases hs
    all_goals try trivial
    split at hs <;> cases hs
    trivial
  | _ =>
    cases ch <;> simp only [ststep] at hs
    all_goals try cases hs
    all_goals repeat' split at hs
    all_goals try cases hs
    all_goals first | trivial | exact .onThrow _ | exact .onLinked _

theorem AtU.head {l : Loc R.K α} {k p} (h : AtU l k p) : ctl l k = none := by
  cases h with
  | alloc _ h => exact h.head
  | free _ h => exact h.head
  | _ => rfl

abbrev GoalU (n : Nat) (l : Loc R.K α) (k : LRest R α) (p : SPC R.K α) : Prop :=
  Soon (smach α R) (okU R) isSpur (Leads n AtU l k) p

theorem linkU_end {l : Loc R.K α} {r ctx} (h : LinkCtxU r l ctx) : Leads 20 AtU l ctx (.ret r) := by
  cases h with
  | one =>
    leads
    exact .fin rfl
  | range h =>
    leads
    exact .fin (by simp [h])

theorem reserveU_loop {l : Loc R.K α} {k} (h1 : l.i + k = l.count) : GoalU 20 l (.stm reserveLoopU :: reserveRestU) (.rsv k) := by
  cases k with
  | zero =>
    refine .inr ⟨.ret .reserved, fun t s => ⟨⟨.go, rfl, ⟨⟨trivial, by simp⟩, by simp, by simp⟩, by simp [smach, ststep]⟩,
      fun ch y h => by cases ch <;> simp [smach, ststep] at h; exact h.symm⟩, ?_⟩
    have h2 : l.i = l.count := by omega
    leads
    exact .fin rfl
  | succ k =>
    have h2 : ¬ l.i = l.count := by omega
    left
    leads
    exact .rsv h1

theorem undoU_loop {l : Loc R.K α} :
    Leads 20 AtU l (.stm undoLoopU :: undoRestU) (match l.current_node with | none => .ret .threw | some n => .undo n) := by
  rcases hc : l.current_node with _ | n
  · leads
    exact .fin rfl
  · leads
    exact .undo hc

theorem prepareU_loop {l : Loc R.K α} {acc top e rest} (h1 : l.range.length = acc.length + rest.length) (h2 : l.it = rest)
    (h3 : l.new_top_node = some top) (h4 : l.end_node = some e) :
    Leads 20 AtU l (.stm prepareLoopU :: prepareRestU) (sonLinked false acc top e rest) := by
  cases rest with
  | nil =>
    leads
    refine .lload (.range ?_) h3 h4
    simp [h1, h2]
  | cons v rest =>
    leads
    refine .alloc (.more ?_ ?_ h2 h3 h4) .load
    · simp [h2]
    · simpa using h1

/-- `construct` returned null. -/
theorem pushU_null {l : Loc R.K α} {c ctx} (h : PushCtxU c l ctx) (hn : l.fl.node = none) :
    Leads 20 AtU l (.stm (.ite (fun l => l.fl.node.isSome) (.acc ((port R α).ctor fun l => l.arg)) .skip) :: .fn :: ctx) (sonNull c) := by
  cases h with
  | one h1 =>
    leads
    exact .fin rfl
  | first h1 h2 h3 =>
    leads
    exact .fin (by simp)
  | more h1 h2 h3 h4 h5 =>
    leads
    refine .lload (.range ?_) h4 h5
    simp [h2, h3]

/-- `construct` threw. -/
theorem pushU_throw {l : Loc R.K α} {c ctx} (h : PushCtxU c l ctx) :
    Leads 20 AtU l (toHandler ctx) (sonThrow c) := by
  cases h with
  | one h1 =>
    leads
    exact .fin rfl
  | first h1 h2 h3 =>
    leads
    exact .fin rfl
  | more h1 h2 h3 h4 h5 =>
    leads
    exact .undo h4

theorem PushCtxU.same {l l' : Loc R.K α} {c ctx} (h : PushCtxU c l ctx) (hs : (port R α).Same l l') : PushCtxU c l' ctx := by
  obtain ⟨x, rfl⟩ := hs
  cases h with
  | one h1 => exact .one h1
  | first h1 h2 h3 => exact .first h1 h2 h3
  | more h1 h2 h3 h4 h5 => exact .more h1 h2 h3 h4 h5

theorem FreeCtxU.same {l l' : Loc R.K α} {c ctx} (h : FreeCtxU c l ctx) (hs : (port R α).Same l l') : FreeCtxU c l' ctx := by
  obtain ⟨x, rfl⟩ := hs
  cases h with
  | pop h1 => exact .pop h1
  | rsv h1 => exact .rsv h1
  | undo h1 => exact .undo h1

/-- `deallocate` returned. -/
theorem freeU_end {l : Loc R.K α} {c ctx} (h : FreeCtxU c l ctx) : GoalU 40 l ctx (sonFreed c) := by
  cases h with
  | pop h1 =>
    left
    leads
    exact .fin (by simp [h1])
  | rsv h1 =>
    refine Soon.reach (a := 2) (l' := { l with i := l.i + 1 }) ?_ (reserveU_loop (by simp; omega))
    exact .step rfl (.step rfl .refl)
  | @undo _ nx h1 =>
    left
    have := undoU_loop (l := { l with current_node := l.next })
    rw [show (sonFreed (.undo nx) : SPC R.K α) = match l.next with | none => .ret .threw | some n => .undo n by simp [sonFreed, h1]; rfl]
    refine Leads.reach (a := 3) ?_ this
    exact .step rfl (.step rfl (.step rfl .refl))

/-- `construct` returned a node. -/
theorem pushU_got {l : Loc R.K α} {c ctx n} (h : PushCtxU c l ctx) (hn : l.fl.node = some n) :
    Leads 20 AtU l (.stm (.ite (fun l => l.fl.node.isSome) (.acc ((port R α).ctor fun l => l.arg)) .skip) :: .fn :: ctx) (.constr false c n) := by
  leads
  exact .constr h hn

/-- The node is constructed. -/
theorem pushU_constr {l : Loc R.K α} {c ctx n} (h : PushCtxU c l ctx) (hn : l.fl.node = some n) :
    Leads 20 AtU l (.fn :: ctx) (match c with | .one _ => .lload n n (.pushed true) | .range acc te v rest => .rlink false acc te v rest n) := by
  cases h with
  | one h1 =>
    leads
    exact .lload .one hn hn
  | first h1 h2 h3 =>
    leads
    exact .rlink0 hn hn h2 h3
  | more h1 h2 h3 h4 h5 =>
    leads
    exact .rlink hn h2 h3 h4 h5

theorem PushCtxU.arg {l : Loc R.K α} {c ctx} (h : PushCtxU c l ctx) : l.arg = some c.val := by
  cases h <;> assumption

/-- What holds of a thread that executes unsynchronized functions alone. -/
def InvU (R : Rep) (s : SSt R.K α) (p : SPC R.K α) : Prop :=
  NowU R s p ∧ ∀ thr o nx, p = .pcas thr o nx → R.K.hnd (R.K.node nx) = nx

theorem accessU (hf : R.Faithful) (t : Nat) (s : SSt R.K α) (l : Loc R.K α) (a : LAcc R α) (k : LRest R α) (p : SPC R.K α)
    (ch : SChoice R.K (Op α) α) (s' : SSt R.K α) (l' : Loc R.K α) (f : Flow) (hI : InvU R s p) (hat : AtU l (.stm (.acc a) :: k) p)
    (_ : a.ok s l ch = true) (hr : a.run t s l ch = some (s', l', f)) :
    ∃ p', okU R s p ch ∧ ststep R t s p ch = some (s', p', none) ∧
      f.ifUb (p' = .err) (GoalU 60 l' (f.rest k) p') := by
  obtain ⟨hI, hnx⟩ := hI
  generalize hk : Item.stm (.acc a) :: k = K at hat
  cases hat with
  | @alloc c l ctx K a' hc ha =>
    subst hk
    obtain ⟨m, r, h1, h2, rfl, h4, h5, h6⟩ := allocU_access hf ha hI hr
    have hsp : ch ≠ .spur := by
      rintro rfl
      simp only [NowU] at hI
      cases ha <;> simp [Port.loadPool, Port.osAllocate, Port.readLink, Port.storePool, Port.acc, *] at hr
    have hc' := hc.same h4
    cases r with
    | more a₁ =>
      obtain ⟨rfl, i, l₁, k₁, hi, h8, h9, h10⟩ := h6
      refine ⟨.alloc false c a₁, ⟨⟨h2, fun _ => h5 _⟩, hsp, fun _ _ => h5 _⟩, by simp only [ststep]; erw [h1]; rfl, ?_⟩
      rcases h10 with h10 | ⟨rfl, h11, o, rfl, h12, h13⟩
      · exact .inl (Leads.reach h9 (Leads.here (n := 0) (.alloc (hc'.same h8) h10)) (by omega))
      · refine .inr ⟨sonNull c, fun t s => ⟨⟨.go, rfl, ⟨⟨trivial, by simp⟩, by simp, by simp⟩, by simp [smach, ststep, saStep, h12, h13]⟩,
          fun ch y h => by cases ch <;> simp [smach, ststep, saStep, h12, h13] at h; exact h.symm⟩, ?_⟩
        exact Leads.reach h9 (pushU_null (hc'.same h8) h11) (by omega)
    | got n =>
      obtain ⟨rfl, i, l₁, hi, h8, h9, h10⟩ := h6
      refine ⟨.constr false c n, ⟨⟨h2, fun _ => h5 _⟩, hsp, fun _ _ => h5 _⟩, by simp only [ststep]; erw [h1]; rfl, ?_⟩
      exact .inl (Leads.reach h9 (pushU_got (hc'.same h8) h10) (by omega))
    | null => exact h6.elim
    | badAlloc =>
      obtain ⟨rfl, h8⟩ := h6
      refine ⟨sonThrow c, ⟨⟨h2, fun _ => h5 _⟩, hsp, fun _ _ => h5 _⟩, by simp only [ststep]; erw [h1]; rfl, .inl ?_⟩
      simp only [Flow.rest, h8]
      exact (pushU_throw (ctx := ctx) hc').mono (by decide)
  | @constr c l ctx n hc hn =>
    cases hk
    have ha := hc.arg
    simp only [Port.ctor, port, hn, ha] at hr
    cases ch <;> simp at hr
    · by_cases hd : (s.mem.data n).isSome
      · simp [hd] at hr
        obtain ⟨rfl, rfl, rfl⟩ := hr
        exact ⟨.err, ⟨⟨trivial, by simp⟩, by simp, by simp⟩, by simp [ststep, hd], rfl⟩
      · simp [hd] at hr
        obtain ⟨rfl, rfl, rfl⟩ := hr
        refine ⟨_, ⟨⟨trivial, by simp⟩, by simp, by simp⟩, ?_, .inl ((pushU_constr hc hn).mono (by decide))⟩
        simp only [ststep, hd]
        cases hc <;> rfl
    · obtain ⟨rfl, rfl, rfl⟩ := hr
      exact ⟨_, ⟨⟨trivial, by simp⟩, by simp, by simp⟩, rfl, .inl ((pushU_throw (ctx := ctx) hc).mono (by decide))⟩
  | @rlink0 l v rest n h1 h2 h3 h4 =>
    cases hk
    simp only [setNext, h1] at hr
    cases ch <;> simp at hr
    obtain ⟨rfl, rfl, rfl⟩ := hr
    refine ⟨_, ⟨⟨trivial, by simp⟩, by simp, by simp⟩, rfl, .inl (Leads.reach (a := 3) ?_ (prepareU_loop (acc := [v]) (rest := rest) (top := n) (e := n) ?_ h4 h2 h1))⟩
    · exact .step rfl (.step rfl (.step rfl .refl))
    · simp [h3, Nat.add_comm]
  | @rlink l acc top e v rest n h1 h2 h3 h4 h5 =>
    cases hk
    simp only [setNext, h1, h4] at hr
    cases ch <;> simp at hr
    obtain ⟨rfl, rfl, rfl⟩ := hr
    refine ⟨_, ⟨⟨trivial, by simp⟩, by simp, by simp⟩, rfl, .inl (Leads.reach (a := 4) (l' := { l with new_top_node := l.newnode, it := l.it.tail }) ?_
      (prepareU_loop (acc := acc ++ [v]) (rest := rest) (top := n) (e := e) ?_ ?_ h1 h5))⟩
    · exact .step rfl (.step rfl (.step rfl (.step rfl .refl)))
    · simp [h2]; omega
    · simp [h3]
  | @lload l top e r ctx hc h1 h2 =>
    cases hk
    simp only [loadTos] at hr
    cases ch <;> simp at hr
    obtain ⟨rfl, rfl, rfl⟩ := hr
    refine ⟨_, ⟨⟨trivial, by simp⟩, by simp, by simp⟩, rfl, .inl ?_⟩
    simp only [Flow.rest]
    leads
    refine .lset ?_ h1 h2 rfl (by simp [h1])
    cases hc
    · exact .one
    · exact .range (by assumption)
  | @lset l top e o r ctx hc h1 h2 h3 h4 =>
    cases hk
    subst h3
    simp only [setNext, h2] at hr
    cases ch <;> simp at hr
    obtain ⟨rfl, rfl, rfl⟩ := hr
    refine ⟨_, ⟨⟨trivial, by simp⟩, by simp, by simp⟩, rfl, .inl ?_⟩
    simp only [Flow.rest]
    leads
    exact .lcas hc rfl h4
  | @lcas l top e o r ctx hc h3 h4 =>
    cases hk
    subst h3
    have he : s.tos = l.old_tos.v := congrArg SSnap.v hI
    simp only [storeTos] at hr
    cases ch <;> simp at hr
    obtain ⟨rfl, rfl, rfl⟩ := hr
    exact ⟨.ret r, ⟨⟨trivial, by simp⟩, by simp, by simp⟩, by simp [ststep, he, h4], .inl (Leads.reach (.step rfl .refl) (linkU_end hc))⟩
  | @pload l thr h1 h2 =>
    cases hk
    simp only [loadTos] at hr
    cases ch <;> simp at hr
    obtain ⟨rfl, rfl, rfl⟩ := hr
    refine ⟨_, ⟨⟨trivial, by simp⟩, by simp, by simp⟩, rfl, ?_⟩
    simp only [Flow.rest]
    rcases hn : R.K.node (R.K.ptr s.tosSnap.v) with _ | n
    · refine .inr ⟨.ret (.popped none), ?_, ?_⟩
      · exact fun t s => ⟨⟨.go, rfl, ⟨⟨trivial, by simp⟩, by simp, by simp⟩, by simp [smach, ststep, hn]⟩,
          fun ch y h => by cases ch <;> simp [smach, ststep, hn] at h; exact h.symm⟩
      · leads
        exact .fin rfl
    · left
      leads
      exact .ptest h1 h2 rfl hn hn
  | @ptest l thr o n h1 h2 h3 h4 h5 =>
    cases hk
    subst h3
    simp only [readNext, h5] at hr
    cases ch <;> simp at hr
    obtain ⟨rfl, rfl, rfl⟩ := hr
    refine ⟨.pcas thr l.old_tos (R.K.ptr (s.mem.next n)), ⟨⟨trivial, by simp⟩, by simp, by simp⟩, by simp [ststep, h4], .inl ?_⟩
    simp only [Flow.rest]
    leads
    exact .pcas h1 h2 rfl h4 rfl rfl
  | @pcas l thr o n nx h1 h2 h3 h4 h5 h6 =>
    cases hk
    subst h3
    have he : s.tos = l.old_tos.v := congrArg SSnap.v hI
    have hfr : s.tosVer < l.old_tos.ver + R.M := by
      have : s.tosVer = l.old_tos.ver := congrArg SSnap.ver hI
      have := hf.pos
      omega
    rw [hnx _ _ _ rfl] at h6
    simp only [storeTos] at hr
    cases ch <;> simp at hr
    obtain ⟨rfl, rfl, rfl⟩ := hr
    refine ⟨.papply thr n, ⟨⟨hfr, by simp⟩, by simp, by simp⟩, by simp [ststep, he, h4, h6], .inl ?_⟩
    simp only [Flow.rest]
    leads
    exact .papply h1 h2 h4 h5
  | @papply l thr n h1 h2 h3 h4 =>
    cases hk
    simp only [apply, h4] at hr
    cases ch <;> simp at hr
    rcases hd : s.mem.data n with _ | v
    · simp [hd] at hr
      obtain ⟨rfl, rfl, rfl⟩ := hr
      exact ⟨.err, ⟨⟨trivial, by simp⟩, by simp, by simp⟩, by simp [ststep, hd], rfl⟩
    · simp [hd, h1, h2] at hr
      obtain ⟨rfl, rfl, rfl⟩ := hr
      cases thr
      · refine ⟨.pdestroy n v, ⟨⟨trivial, by simp⟩, by simp, by simp⟩, by simp [ststep, hd], .inl ?_⟩
        simp only [Flow.rest]
        leads
        exact .pdestroy rfl h3
      · refine ⟨.ret (.popped (some v)), ⟨⟨trivial, by simp⟩, by simp, by simp⟩, by simp [ststep, hd], .inl ?_⟩
        simp only [Flow.rest]
        leads
        exact .fin rfl
  | @pdestroy l n v h1 h2 =>
    cases hk
    simp only [Port.dtor, Port.acc, port, h2] at hr
    cases ch <;> simp at hr
    rcases hd : s.mem.data n with _ | w
    · simp [hd] at hr
      obtain ⟨rfl, rfl, rfl⟩ := hr
      exact ⟨.err, ⟨⟨trivial, by simp⟩, by simp, by simp⟩, by simp [ststep, hd], rfl⟩
    · simp [hd] at hr
      obtain ⟨rfl, rfl, rfl⟩ := hr
      refine ⟨.free (.pop v) n .load, ⟨⟨trivial, by simp⟩, by simp, by simp⟩, by simp [ststep, hd], .inl ?_⟩
      simp only [Flow.rest]
      leads
      exact .free (.pop h1) (.load h2)
  | @free l c n d ctx K hc hd =>
    subst hk
    obtain ⟨m, r, h1, rfl, h4, h5, rfl, h6⟩ := deallocU_access hd hI hr
    have hsp : ch ≠ .spur := by
      rintro rfl
      cases hd <;> simp [Port.loadPool, Port.setLink, Port.storePool, Port.acc, *] at hr
    cases r with
    | some d' =>
      obtain ⟨i, l₁, k₁, hi, h8, h9, h10⟩ := h6
      refine ⟨.free c n d', ⟨⟨trivial, fun _ => h5 _⟩, hsp, fun _ _ => h5 _⟩, by simp only [ststep]; erw [h1]; rfl,
        .inl (Leads.reach h9 (Leads.here (n := 0) (.free ((hc.same h4).same h8) h10)) (by omega))⟩
    | none =>
      exact ⟨sonFreed c, ⟨⟨trivial, fun _ => h5 _⟩, hsp, fun _ _ => h5 _⟩, by simp only [ststep]; erw [h1]; rfl, Soon.reach h6 (freeU_end (hc.same h4))⟩
  | @rsv l k h1 =>
    cases hk
    simp only [Port.osAllocate, Port.acc, port] at hr
    cases ch <;> simp at hr
    · by_cases hl : s.mem.nalloc < R.limit <;> simp [hl] at hr
      obtain ⟨rfl, rfl, rfl⟩ := hr
      refine ⟨.free (.rsv k) s.mem.nalloc .load, ⟨⟨trivial, by simp⟩, by simp, by simp⟩, by simp [ststep, hl], .inl ?_⟩
      simp only [Flow.rest]
      leads
      exact .free (.rsv h1) (.load rfl)
    · obtain ⟨rfl, rfl, rfl⟩ := hr
      refine ⟨.ret .threw, ⟨⟨trivial, by simp⟩, by simp, by simp⟩, rfl, .inl ?_⟩
      simp only [Flow.rest]
      leads
      exact .fin rfl
  | @undo l n h1 =>
    cases hk
    simp only [readNext, h1] at hr
    cases ch <;> simp at hr
    obtain ⟨rfl, rfl, rfl⟩ := hr
    refine ⟨_, ⟨⟨trivial, by simp⟩, by simp, by simp⟩, rfl, .inl ?_⟩
    simp only [Flow.rest]
    leads
    exact .undoD rfl rfl
  | @undoD l n nx h1 h2 =>
    cases hk
    simp only [Port.dtor, Port.acc, port, h1] at hr
    cases ch <;> simp at hr
    rcases hd : s.mem.data n with _ | w
    · simp [hd] at hr
      obtain ⟨rfl, rfl, rfl⟩ := hr
      exact ⟨.err, ⟨⟨trivial, by simp⟩, by simp, by simp⟩, by simp [ststep, hd], rfl⟩
    · simp [hd] at hr
      obtain ⟨rfl, rfl, rfl⟩ := hr
      refine ⟨.free (.undo nx) n .load, ⟨⟨trivial, by simp⟩, by simp, by simp⟩, by simp [ststep, hd], .inl ?_⟩
      simp only [Flow.rest]
      leads
      exact .free (.undo h2) (.load h1)
  | fin => simp at hk

/-- The beginning of a call. -/
theorem callU_start (t : Nat) (s : SSt R.K α) (o : Op α) (l : Loc R.K α) (a : LStm R α) (hb : (unsyncProgram R α).body t o = some (l, a))
    (hok : ∀ b, o ≠ .pushRange b []) :
    ∃ ch p, isSpur ch = false ∧ okU R s .idle ch ∧ ststep R t s .idle ch = some (s, p, some (.inv t o)) ∧ GoalU 60 l [.stm a] p := by
  suffices h : ∃ p, sstart R o = some p ∧ (∀ rev thr, o ≠ .consumeAll rev thr) ∧ GoalU 60 l [.stm a] p by
    obtain ⟨p, hp, ho, hg⟩ := h
    exact ⟨.call o, p, rfl, ⟨⟨trivial, fun b h => hok b (SChoice.call.inj h)⟩, by simp, fun rev thr h => ho rev thr (SChoice.call.inj h)⟩, by simp [ststep, hp], hg⟩
  cases o with
  | push b v =>
    cases b <;> simp [unsyncProgram] at hb
    obtain ⟨rfl, rfl⟩ := hb
    refine ⟨_, rfl, by simp, .inl ?_⟩
    leads
    exact .alloc (.one rfl) .load
  | pushRange b vs =>
    cases b <;> by_cases hfx : R.fixed = true <;> simp [unsyncProgram, hfx] at hb
    obtain ⟨rfl, rfl⟩ := hb
    cases vs with
    | nil => exact (hok false rfl).elim
    | cons v rest =>
      refine ⟨_, by simp [sstart, hfx]; rfl, by simp, .inl ?_⟩
      leads
      exact .alloc (.first rfl rfl rfl) .load
  | pop thr =>
    simp [unsyncProgram] at hb
    obtain ⟨rfl, rfl⟩ := hb
    refine ⟨_, rfl, by simp, .inl ?_⟩
    leads
    exact .pload rfl rfl
  | consumeAll rev thr => simp [unsyncProgram] at hb
  | empty => simp [unsyncProgram] at hb
  | reserve k =>
    by_cases hfx : R.fixed = true <;> simp [unsyncProgram, hfx] at hb
    obtain ⟨rfl, rfl⟩ := hb
    refine ⟨.rsv k, by simp [sstart, hfx], by simp, ?_⟩
    refine Soon.reach (a := 6) (l' := { Loc.init R.zero with count := k }) ?_ (reserveU_loop (by simp [Loc.init]))
    exact .step rfl (.step rfl (.step rfl (.step rfl (.step rfl (.step rfl .refl)))))

/-- The unsynchronized text, executed by a thread alone, refines the machine on words. -/
theorem refinesU (hf : R.Faithful) :
    Refines (unsyncProgram R α) (smach α R) (fun _ o => ∀ b, o ≠ .pushRange b []) (okU R) isSpur .err (fun _ => InvU R)
      AtU 60 where
  call := callU_start
  head _ _ _ h := h.head
  access := accessU hf
  fin l p h := by
    generalize hk : ([] : LRest R α) = K at h
    cases h with
    | fin hr => rw [← hr]; rfl
    | alloc _ h => exact (h.ne hk.symm).elim
    | free _ h => exact (h.ne hk.symm).elim
    | _ => simp [dtorRestU] at hk
  res t s r := ⟨.go, rfl, ⟨⟨trivial, by simp⟩, by simp, by simp⟩, rfl⟩
  env t s p ch s' h := by simp [unsyncProgram] at h

end Verif.Stack.Code
