import Verif.Stack.Text
import Verif.Stack.WordProps

/-!
# Stack: the program text refines the machine on words (C52)

No further code of /repo is modelled here.
-/

namespace Verif.Stack.Code
open Lin Text

variable {α : Type} {R : Rep}

abbrev LRest (R : Rep) (α : Type) := PRest R α (SSt R.K α) (Loc R.K α) (Op α)

/-- The end of a call. -/
def base (r : Loc R.K α → Ret α) : LRest R α := [.fn, .handler (.set fun l => { l with result := r l })]

/-- Within `do_push( begin, end )`, during `prepare_node_list`. -/
def rangeRest (b : Bool) : LRest R α := .fn :: .stm ((doPushRange b).drop 1) :: base fun _ => .threw

/-- Within the loop of `prepare_node_list`. -/
def prepareRest (b : Bool) : LRest R α :=
  .loop (prepareLoop b) :: .handler undo :: .stm ((prepareNodeList b).drop 8) :: rangeRest b

/-- Within the `catch` block of `prepare_node_list`. -/
def undoRest (b : Bool) : LRest R α :=
  .loop undoLoop :: .stm .rethrow :: .stm ((prepareNodeList b).drop 8) :: rangeRest b

/-- Where `construct` was called from. -/
inductive PushCtx (b : Bool) : PushK α → Loc R.K α → LRest R α → Prop where
  | one {l v} : l.arg = some v → PushCtx b (.one v) l (.stm ((doPush b).drop 1) :: base fun _ => .threw)
  | first {l v rest} : l.arg = some v → l.range = v :: rest → l.it = rest →
      PushCtx b (.range [] none v rest) l (.stm ((prepareNodeList b).drop 3) :: rangeRest b)
  | more {l v rest acc top e} : l.arg = some v → l.range.length = acc.length + (rest.length + 1) → l.it = v :: rest →
      l.new_top_node = some top → l.end_node = some e →
      PushCtx b (.range acc (some (top, e)) v rest) l (.stm ((prepareLoop b).drop 3) :: prepareRest b)

/-- Where `link_nodes_atomic` was called from. -/
inductive LinkCtx : Ret α → Loc R.K α → LRest R α → Prop where
  | one {l b} : LinkCtx (.pushed true) l (.stm ((doPush b).drop 5) :: base fun _ => .threw)
  | range {l b k} : l.range.length - l.ret.length = k → LinkCtx (.count k) l (.stm ((doPushRange b).drop 2) :: base fun _ => .threw)

/-- The loop over `nodes_to_consume` or `nodes_in_reversed_order`, and what follows it. -/
inductive ApplyCtx : (Loc R.K α → R.K.W) → LStm R α → LRest R α → Prop where
  | fwd : ApplyCtx (fun l => l.nodes_to_consume) forwardLoop (.stm (consumeAllAtomic.drop 5) :: base fun l => .took l.applied)
  | bwd : ApplyCtx (fun l => l.nodes_in_reversed_order) backwardLoop
      (.stm (consumeAllAtomicReversed.drop 7) :: base fun l => .took l.applied)

/-- What follows `destruct` in `applyLoop`. -/
def applyRest (loop : LStm R α) (k : LRest R α) : Option Nat → LRest R α
  | none => .stm .brk :: .stm (loop.drop 5) :: .loop loop :: k
  | some _ => .stm (loop.drop 7) :: .loop loop :: k

/-- The variables of the loop. -/
structure Applying (l : Loc R.K α) (thr : Option Nat) (acc : List α) : Prop where
  thr : l.thr = thr
  applied : l.applied = acc
  count : l.element_count = acc.length

/-- What follows the first loop of `consume_all_atomic` and `consume_all_atomic_reversed`. -/
def takeRest : Bool → LRest R α
  | false => .loop takeAllLoop :: .stm (consumeAllAtomic.drop 3) :: base fun l => .took l.applied
  | true => .loop takeAllLoop :: .stm (consumeAllAtomicReversed.drop 3) :: base fun l => .took l.applied

/-- What follows the first load of `consume_all_atomic` and `consume_all_atomic_reversed`. -/
def startRest : Bool → LRest R α
  | false => .stm (consumeAllAtomic.drop 2) :: base fun l => .took l.applied
  | true => .stm (consumeAllAtomicReversed.drop 2) :: base fun l => .took l.applied

/-- Within the loop that reverses the list. -/
def reverseRest : LRest R α := .loop reverseLoop :: .stm (consumeAllAtomicReversed.drop 6) :: base fun l => .took l.applied

/-- Within `consume_one`. -/
def popRest : LRest R α := .loop consumeOneLoop :: base fun l => .popped l.applied.head?

/-- Within the loop of `reserve`. -/
def reserveRest : LRest R α := .loop reserveLoop :: .stm (reserve.drop 2) :: base fun _ => .threw

/-- Where `deallocate( n )` was called from. -/
inductive FreeCtx : SFreeK R.K α → Loc R.K α → LRest R α → Prop where
  | pop {l v} : l.applied = [v] → FreeCtx (.pop v) l (.fn :: .stm (consumed.drop 2) :: popRest)
  | cons {l thr acc nx w loop k q} : ApplyCtx w loop k → Applying l thr acc → R.K.node nx = q →
      (∀ m, q = some m → R.K.node (R.K.ptr l.next_handle) = some m) → FreeCtx (.cons thr acc nx) l (.fn :: applyRest loop k q)
  | rsv {l k} : l.i + (k + 1) = l.count → FreeCtx (.rsv k) l (.stm (reserveLoop.drop 3) :: reserveRest)
  | undo {l b nx} : l.next = R.K.node nx → FreeCtx (.undo nx) l (.fn :: .stm (undoLoop.drop 3) :: undoRest b)

/-- The access to the payload of a node that is destroyed, and what follows it. -/
def dtorRest (k : LRest R α) : LRest R α := .stm (.acc (port R α).dtor) :: .stm (.fn (port R α).deallocate) :: .fn :: k

/-- What the result of a call has to do with the elements to which the functor was applied. -/
def Output (l : Loc R.K α) : Prop :=
  match l.result with
  | .popped x => l.applied = x.toList
  | .took vs => l.applied = vs
  | _ => True

/-- Places in the text and program counters of the machine on words. -/
inductive Core : Loc R.K α → LRest R α → SPC R.K α → Prop where
  | alloc {b c l ctx k a} : PushCtx b c l ctx →
      AllocAt (port R α) b (.stm (.ite (fun l => l.fl.node.isSome) (.acc ((port R α).ctor fun l => l.arg)) .skip) :: .fn :: ctx) l k a →
      Core l k (.alloc b c a)
  | constr {b c l ctx n} : PushCtx b c l ctx → l.fl.node = some n →
      Core l (.stm (.acc ((port R α).ctor fun l => l.arg)) :: .fn :: ctx) (.constr b c n)
  | rlink0 {b l v rest n} : l.end_node = some n → l.new_top_node = some n → l.range = v :: rest → l.it = rest →
      Core l (.stm (.acc (setNext (fun l => l.end_node) (fun _ => R.K.hnd none))) :: .stm ((prepareNodeList b).drop 7) :: rangeRest b)
        (.rlink b [] none v rest n)
  | rlink {b l acc top e v rest n} : l.newnode = some n → l.range.length = acc.length + (rest.length + 1) → l.it = v :: rest →
      l.new_top_node = some top → l.end_node = some e →
      Core l (.stm (.acc (setNext (fun l => l.newnode) (fun l => R.K.hnd l.new_top_node))) :: .stm ((prepareLoop b).drop 6) :: prepareRest b)
        (.rlink b acc (some (top, e)) v rest n)
  | lload {l top e r ctx} : LinkCtx r l ctx → l.new_top_node = some top → l.end_node = some e →
      Core l (.stm (.acc (loadTos .relaxed)) :: .stm (.forever linkLoop) :: .fn :: ctx) (.lload top e r)
  | lset {l top e o r ctx} : LinkCtx r l ctx → l.new_top_node = some top → l.end_node = some e → l.old_tos = o →
      l.new_tos = R.K.pack (R.K.hnd (some top)) (R.K.tag o.v) →
      Core l (.stm (.acc (setNext (fun l => l.end_node) (fun l => R.K.ptr l.old_tos.v))) :: .stm (linkLoop.drop 2) :: .loop linkLoop :: .fn :: ctx)
        (.lset top e o r)
  | lcas {l top e o r ctx} : LinkCtx r l ctx → l.new_top_node = some top → l.end_node = some e → l.old_tos = o →
      l.new_tos = R.K.pack (R.K.hnd (some top)) (R.K.tag o.v) →
      Core l (.stm (.acc (casTos false)) :: .stm (linkLoop.drop 3) :: .loop linkLoop :: .fn :: ctx) (.lcas top e o r)
  | pload {l thr} : l.thr = (if thr then some 0 else none) → l.applied = [] →
      Core l (.stm (.acc (loadTos .consume)) :: .stm (.forever consumeOneLoop) :: base fun l => .popped l.applied.head?) (.pload thr)
  | ptest {l thr o n} : l.thr = (if thr then some 0 else none) → l.applied = [] → l.old_tos = o → R.K.node (R.K.ptr o.v) = some n →
      l.old_tos_pointer = some n →
      Core l (.stm (.acc (readNextSpec (fun l => l.old_tos_pointer) (fun l h => { l with old_tos_next := h }))) ::
        .stm (consumeOneLoop.drop 3) :: popRest) (.ptest thr o)
  | pcas {l thr o n nx} : l.thr = (if thr then some 0 else none) → l.applied = [] → l.old_tos = o → R.K.node (R.K.ptr o.v) = some n →
      l.old_tos_pointer = some n → l.new_tos = R.K.pack nx (R.K.next (R.K.tag o.v)) →
      Core l (.stm (.acc (casTos true)) :: .stm (consumeOneLoop.drop 5) :: popRest) (.pcas thr o nx)
  | papply {l thr n} : l.thr = (if thr then some 0 else none) → l.applied = [] → R.K.node (R.K.ptr l.old_tos.v) = some n →
      l.old_tos_pointer = some n →
      Core l (.stm (.acc (apply fun l => l.old_tos_pointer)) :: .stm (consumed.drop 1) :: popRest) (.papply thr n)
  | pdestroy {l n v} : l.applied = [v] → l.fl.n = some n → Core l (dtorRest (.stm (consumed.drop 2) :: popRest)) (.pdestroy n v)
  | free {l c n d ctx k} : FreeCtx c l ctx → DeallocAt (port R α) n ctx l k d → Core l k (.free c n d)
  | cload {l rev thr} : Applying l thr [] →
      Core l (.stm (.acc (loadTos .consume)) :: startRest rev) (.cload rev thr)
  | ccas {l rev thr o n} : Applying l thr [] → l.old_tos = o → R.K.node (R.K.ptr o.v) = some n →
      l.new_tos = R.K.pack (R.K.hnd none) (R.K.next (R.K.tag o.v)) →
      Core l (.stm (.acc (casTos true)) :: .stm (takeAllLoop.drop 4) :: takeRest rev) (.ccas rev thr o)
  | crev {l thr n last} : Applying l thr [] → l.node_pointer = some n → R.K.node (R.K.ptr l.nodes_to_consume) = some n →
      l.last_node_pointer = last →
      Core l (.stm (.acc (readNext (fun l => l.node_pointer) (fun l h => { l with next_node := R.K.node h }))) ::
        .stm (reverseLoop.drop 2) :: reverseRest) (.crev thr n last)
  | crevSet {l thr n last nx} : Applying l thr [] → l.node_pointer = some n → R.K.node (R.K.ptr l.nodes_to_consume) = some n →
      l.last_node_pointer = last → l.next_node = R.K.node nx →
      Core l (.stm (.acc (setNext (fun l => l.node_pointer) (fun l => R.K.hnd l.last_node_pointer))) ::
        .stm (reverseLoop.drop 3) :: reverseRest) (.crevSet thr n last nx)
  | capply {l thr n acc w loop k} : ApplyCtx w loop k → Applying l thr acc → l.node_pointer = some n → R.K.node (R.K.ptr (w l)) = some n →
      Core l (.stm (.acc (apply fun l => l.node_pointer)) :: .stm (loop.drop 2) :: .loop loop :: k) (.capply thr n acc)
  | cread {l thr n acc w loop k} : ApplyCtx w loop k → Applying l thr acc → l.node_pointer = some n → R.K.node (R.K.ptr (w l)) = some n →
      Core l (.stm (.acc (readNext (fun l => l.node_pointer) (fun l h => { l with next_node := R.K.node h }))) :: .stm (loop.drop 4) :: .loop loop :: k)
        (.cread thr n acc)
  | cdestroy {l thr n acc nx w loop k q} : ApplyCtx w loop k → Applying l thr acc → l.fl.n = some n → R.K.node nx = q →
      (∀ m, q = some m → ∃ t, l.next_handle = R.K.pack (R.K.hnd (some m)) t) →
      Core l (dtorRest (applyRest loop k q)) (.cdestroy thr n acc nx)
  | eload {l} : Core l (.stm (.acc (loadTos .acquire)) :: .stm (isEmpty.drop 1) :: base fun _ => .threw) .eload
  | rsv {l k} : l.i + (k + 1) = l.count →
      Core l (.stm (.acc ((port R α).osAllocate fun v n => { v with n := n })) :: .stm (reserveLoop.drop 2) :: reserveRest) (.rsv (k + 1))
  | undo {l b n} : l.current_node = some n →
      Core l (.stm (.acc (readNext (fun l => l.current_node) (fun l h => { l with next := R.K.node h }))) :: .stm (undoLoop.drop 2) :: undoRest b)
        (.undo n)
  | undoD {l b n nx} : l.fl.n = some n → l.next = R.K.node nx → Core l (dtorRest (.stm (undoLoop.drop 3) :: undoRest b)) (.undoD n nx)
  | fin {l r} : l.result = r → (ho : Output l := by simp [Output, *]) → Core l [] (.ret r)

/-- The number returned by `consume_all_atomic` and `consume_all_atomic_reversed`. -/
def Counts (l : Loc R.K α) : LRest R α → Prop
  | [] => ∀ c, l.returned = some c → ∃ vs, l.result = .took vs ∧ c = vs.length
  | _ :: _ => l.returned = none

def At (l : Loc R.K α) (k : LRest R α) (p : SPC R.K α) : Prop := Core l k p ∧ Counts l k

/-- What the round trip of a handle through `tagged_node_handle` needs: handles that were read belong to nodes. And: only stacks that are not of
fixed size have `reserve`. -/
def TextInv (R : Rep) (_ : SSt R.K α) : SPC R.K α → Prop
  | .cdestroy _ _ _ nx => ∀ m, R.K.node nx = some m → m < R.limit
  | .crevSet _ _ _ nx => ∀ m, R.K.node nx = some m → m < R.limit
  | .rsv _ => R.fixed = false
  | _ => True

theorem Core.head {l : Loc R.K α} {k p} (h : Core l k p) : ctl l k = none := by
  cases h with
  | alloc _ h => exact h.head
  | free _ h => exact h.head
  | _ => rfl

/-- The steps of the machine that only test local variables, and are not steps of the text. -/
def squiet (R : Rep) : SPC R.K α → Option (SPC R.K α)
  | .ptest _ o => if (R.K.node (R.K.ptr o.v)).isNone then some (.ret (.popped none)) else none
  | .ctest rev thr o => if (R.K.node (R.K.ptr o.v)).isNone then some (.ret (.took [])) else some (.ccas rev thr o)
  | .alloc b k (.test o) => if (R.K.node (R.K.ptr o.v)).isNone && (R.fixed || b) then some (sonNull k) else none
  | .rsv 0 => some (.ret .reserved)
  | _ => none

theorem squiet_silent {p p' : SPC R.K α} (h : squiet R p = some p') : Silent (smach α R) (sokFresh R) isSpur p p' := by
  cases p with
  | ptest thr o =>
    rcases hn : R.K.node (R.K.ptr o.v) with _ | n <;> simp [squiet, hn] at h
    subst h
    exact fun t s => ⟨⟨.go, rfl, ⟨trivial, by simp⟩, by simp [smach, ststep, hn]⟩,
      fun ch y h => by cases ch <;> simp [smach, ststep, hn] at h; exact h.symm⟩
  | ctest rev thr o =>
    rcases hn : R.K.node (R.K.ptr o.v) with _ | n <;> simp [squiet, hn] at h <;> subst h
    · exact fun t s => ⟨⟨.go, rfl, ⟨trivial, by simp⟩, by simp [smach, ststep, hn]⟩,
        fun ch y h => by cases ch <;> simp [smach, ststep, hn] at h; exact h.symm⟩
    · exact fun t s => ⟨⟨.go, rfl, ⟨trivial, by simp⟩, by simp [smach, ststep, hn]⟩,
        fun ch y h => by cases ch <;> simp [smach, ststep, hn] at h; exact h.symm⟩
  | alloc b k a =>
    cases a with
    | test o =>
      simp only [squiet] at h
      split at h
      · rename_i h1
        rw [Bool.and_eq_true, Option.isNone_iff_eq_none] at h1
        obtain ⟨h12, h13⟩ := h1
        cases h
        exact fun t s => ⟨⟨.go, rfl, ⟨trivial, by simp⟩, by simp [smach, ststep, saStep, h12, h13]⟩,
          fun ch y h => by cases ch <;> simp [smach, ststep, saStep, h12, h13] at h; exact h.symm⟩
      · cases h
    | _ => simp [squiet] at h
  | rsv k =>
    cases k <;> simp [squiet] at h
    subst h
    exact fun t s => ⟨⟨.go, rfl, ⟨trivial, by simp⟩, by simp [smach, ststep]⟩,
      fun ch y h => by cases ch <;> simp [smach, ststep] at h; exact h.symm⟩
  | _ => simp [squiet] at h

/-- What the thread has to do leads to `p`, perhaps after such a step. -/
def Goal (n : Nat) (l : Loc R.K α) (k : LRest R α) (p : SPC R.K α) : Prop :=
  Leads n At l k p ∨ ∃ p', squiet R p = some p' ∧ Leads n At l k p'

theorem Goal.soon {n : Nat} {l : Loc R.K α} {k : LRest R α} {p : SPC R.K α} (h : Goal n l k p) :
    Soon (smach α R) (sokFresh R) isSpur (Leads n At l k) p :=
  h.imp id fun ⟨p', h1, h2⟩ => ⟨p', squiet_silent h1, h2⟩

theorem Goal.reach {n a b : Nat} {l l' : Loc R.K α} {k k' : LRest R α} {p : SPC R.K α} (h : Text.Reach a l k l' k') (hl : Goal b l' k' p)
    (hn : a + b ≤ n := by decide) : Goal n l k p :=
  hl.imp (fun hl => Leads.reach h hl hn) fun ⟨p', h1, h2⟩ => ⟨p', h1, Leads.reach h h2 hn⟩

theorem link_start {l : Loc R.K α} {r ctx top e} (h : LinkCtx r l ctx) (h1 : l.new_top_node = some top) (h2 : l.end_node = some e)
    (h0 : l.returned = none) : Leads 20 At l (.stm (.fn linkNodesAtomic) :: ctx) (.lload top e r) := by
  leads
  exact ⟨.lload h h1 h2, h0⟩

theorem link_loop {l : Loc R.K α} {r ctx top e o} (h : LinkCtx r l ctx) (h1 : l.new_top_node = some top) (h2 : l.end_node = some e)
    (h3 : l.old_tos = o) (h0 : l.returned = none) : Leads 20 At l (.stm linkLoop :: .loop linkLoop :: .fn :: ctx) (.lset top e o r) := by
  leads
  refine ⟨.lset ?_ h1 h2 h3 ?_, h0⟩
  · cases h <;> constructor; assumption
  · simp [h1, h3]

theorem link_end {l : Loc R.K α} {r ctx} (h : LinkCtx r l ctx) (h0 : l.returned = none) : Leads 20 At l ctx (.ret r) := by
  cases h with
  | one =>
    leads
    exact ⟨.fin rfl, by simp [Counts, h0]⟩
  | range h =>
    leads
    exact ⟨.fin (by simp [h]), by simp [Counts, h0]⟩

theorem pop_loop {l : Loc R.K α} {thr o} (h1 : l.thr = (if thr then some 0 else none)) (h2 : l.applied = []) (h3 : l.old_tos = o)
    (h0 : l.returned = none) : Goal 20 l (.stm consumeOneLoop :: popRest) (.ptest thr o) := by
  subst h3
  rcases hn : R.K.node (R.K.ptr l.old_tos.v) with _ | n
  · refine .inr ⟨.ret (.popped none), ?_, ?_⟩
    · simp [squiet, hn]
    · leads
      exact ⟨.fin rfl, by simp [Counts, h0]⟩
  · left
    leads
    exact ⟨.ptest h1 h2 rfl hn hn, h0⟩

theorem take_loop {l : Loc R.K α} {rev thr o} (h1 : Applying l thr []) (h3 : l.old_tos = o)
    (h0 : l.returned = none) : Goal 20 l (.stm takeAllLoop :: takeRest rev) (.ctest rev thr o) := by
  subst h3
  rcases hn : R.K.node (R.K.ptr l.old_tos.v) with _ | n
  · refine .inr ⟨.ret (.took []), ?_, ?_⟩
    · simp [squiet, hn]
    · cases rev
      · leads
        exact ⟨.fin rfl h1.applied, by simp [Counts]⟩
      · leads
        exact ⟨.fin rfl h1.applied, by simp [Counts]⟩
  · refine .inr ⟨.ccas rev thr l.old_tos, ?_, ?_⟩
    · simp [squiet, hn]
    · cases rev
      · leads
        exact ⟨.ccas ⟨h1.1, h1.2, h1.3⟩ rfl hn rfl, h0⟩
      · leads
        exact ⟨.ccas ⟨h1.1, h1.2, h1.3⟩ rfl hn rfl, h0⟩

theorem apply_loop {l : Loc R.K α} {thr acc n w loop k} (h1 : Applying l thr acc) (h2 : ApplyCtx w loop k)
    (hn : R.K.node (R.K.ptr (w l)) = some n) (h0 : l.returned = none) : Leads 20 At l (.stm loop :: .loop loop :: k) (.capply thr n acc) := by
  cases h2
  · leads
    exact ⟨.capply .fwd ⟨h1.1, h1.2, h1.3⟩ hn hn, h0⟩
  · leads
    exact ⟨.capply .bwd ⟨h1.1, h1.2, h1.3⟩ hn hn, h0⟩

theorem apply_end {l : Loc R.K α} {thr acc w loop k} (h1 : Applying l thr acc) (h2 : ApplyCtx w loop k) :
    Leads 20 At l k (.ret (.took acc)) := by
  obtain ⟨h3, h4, h5⟩ := h1
  cases h2
  · leads
    exact ⟨.fin (by simp [h4]), by simp [Counts, h4, h5]⟩
  · leads
    exact ⟨.fin (by simp [h4]), by simp [Counts, h4, h5]⟩

theorem reverse_loop {l : Loc R.K α} {thr n last} (h1 : Applying l thr [])
    (hn : R.K.node (R.K.ptr l.nodes_to_consume) = some n) (h2 : l.last_node_pointer = last) (h0 : l.returned = none) :
    Leads 20 At l (.stm reverseLoop :: reverseRest) (.crev thr n last) := by
  leads
  exact ⟨.crev ⟨h1.1, h1.2, h1.3⟩ hn hn h2, h0⟩

theorem reserve_loop {l : Loc R.K α} {k} (h1 : l.i + k = l.count) (h0 : l.returned = none) : Goal 20 l (.stm reserveLoop :: reserveRest) (.rsv k) := by
  cases k with
  | zero =>
    refine .inr ⟨.ret .reserved, rfl, ?_⟩
    have h2 : l.i = l.count := by omega
    leads
    exact ⟨.fin rfl, by simp [Counts, h0]⟩
  | succ k =>
    have h2 : ¬ l.i = l.count := by omega
    left
    leads
    exact ⟨.rsv h1, h0⟩

theorem undo_loop {l : Loc R.K α} {b} (h0 : l.returned = none) :
    Leads 20 At l (.stm undoLoop :: undoRest b) (match l.current_node with | none => .ret .threw | some n => .undo n) := by
  rcases hc : l.current_node with _ | n
  · leads
    exact ⟨.fin rfl, by simp [Counts, h0]⟩
  · leads
    exact ⟨.undo hc, h0⟩

theorem prepare_loop {l : Loc R.K α} {b acc top e rest} (h1 : l.range.length = acc.length + rest.length) (h2 : l.it = rest)
    (h3 : l.new_top_node = some top) (h4 : l.end_node = some e) (h0 : l.returned = none) :
    Leads 20 At l (.stm (prepareLoop b) :: prepareRest b) (sonLinked b acc top e rest) := by
  cases rest with
  | nil =>
    leads
    refine ⟨.lload (.range (b := b) ?_) h3 h4, h0⟩
    simp [h1, h2]
  | cons v rest =>
    leads
    refine ⟨.alloc (.more ?_ ?_ h2 h3 h4) .load, h0⟩
    · simp [h2]
    · simpa using h1

/-- `construct` returned null. -/
theorem push_null {l : Loc R.K α} {b c ctx} (h : PushCtx b c l ctx) (hn : l.fl.node = none) (h0 : l.returned = none) :
    Leads 20 At l (.stm (.ite (fun l => l.fl.node.isSome) (.acc ((port R α).ctor fun l => l.arg)) .skip) :: .fn :: ctx) (sonNull c) := by
  cases h with
  | one h1 =>
    leads
    exact ⟨.fin rfl, by simp [Counts, h0]⟩
  | first h1 h2 h3 =>
    leads
    exact ⟨.fin (by simp), by simp [Counts, h0]⟩
  | more h1 h2 h3 h4 h5 =>
    leads
    refine ⟨.lload (.range (b := b) ?_) h4 h5, h0⟩
    simp [h2, h3]

/-- `construct` threw. -/
theorem push_throw {l : Loc R.K α} {b c ctx} (h : PushCtx b c l ctx) (h0 : l.returned = none) :
    Leads 20 At l (toHandler ctx) (sonThrow c) := by
  cases h with
  | one h1 =>
    leads
    exact ⟨.fin rfl, by simp [Counts, h0]⟩
  | first h1 h2 h3 =>
    leads
    exact ⟨.fin rfl, by simp [Counts, h0]⟩
  | more h1 h2 h3 h4 h5 =>
    leads
    exact ⟨.undo h4, h0⟩

theorem PushCtx.same {l l' : Loc R.K α} {b c ctx} (h : PushCtx b c l ctx) (hs : (port R α).Same l l') : PushCtx b c l' ctx := by
  obtain ⟨x, rfl⟩ := hs
  cases h with
  | one h1 => exact .one h1
  | first h1 h2 h3 => exact .first h1 h2 h3
  | more h1 h2 h3 h4 h5 => exact .more h1 h2 h3 h4 h5

theorem FreeCtx.same {l l' : Loc R.K α} {c ctx} (h : FreeCtx c l ctx) (hs : (port R α).Same l l') : FreeCtx c l' ctx := by
  obtain ⟨x, rfl⟩ := hs
  cases h with
  | pop h1 => exact .pop h1
  | cons h1 h2 h3 h4 => exact .cons h1 ⟨h2.1, h2.2, h2.3⟩ h3 h4
  | rsv h1 => exact .rsv h1
  | undo h1 => exact .undo h1

theorem same_returned {l l' : Loc R.K α} (hs : (port R α).Same l l') : l'.returned = l.returned := by
  obtain ⟨x, rfl⟩ := hs; rfl

/-- `deallocate` returned. -/
theorem free_end {l : Loc R.K α} {c ctx} (h : FreeCtx c l ctx) (h0 : l.returned = none) : Goal 40 l ctx (sonFreed c) := by
  cases h with
  | pop h1 =>
    left
    leads
    exact ⟨.fin (by simp [h1]), by simp [Counts, h0]⟩
  | @cons _ thr acc nx w loop k q h1 h2 h3 h4 =>
    simp only [sonFreed, h3]
    rcases q with _ | m
    · left
      exact Leads.reach (l' := l) (k' := k) (.step rfl (.step rfl .refl)) (apply_end h2 h1)
    · left
      cases h1
      · refine Leads.reach (a := 3) (l' := { l with nodes_to_consume := l.next_handle }) ?_ (apply_loop ⟨h2.1, h2.2, h2.3⟩ .fwd (h4 m rfl) h0)
        exact .step rfl (.step rfl (.step rfl .refl))
      · refine Leads.reach (a := 3) (l' := { l with nodes_in_reversed_order := l.next_handle }) ?_ (apply_loop ⟨h2.1, h2.2, h2.3⟩ .bwd (h4 m rfl) h0)
        exact .step rfl (.step rfl (.step rfl .refl))
  | rsv h1 =>
    refine Goal.reach (a := 2) (l' := { l with i := l.i + 1 }) ?_ (reserve_loop (by simp; omega) h0)
    exact .step rfl (.step rfl .refl)
  | @undo _ b nx h1 =>
    left
    have := undo_loop (l := { l with current_node := l.next }) (b := b) h0
    rw [show (sonFreed (.undo nx) : SPC R.K α) = match l.next with | none => .ret .threw | some n => .undo n by simp [sonFreed, h1]; rfl]
    refine Leads.reach (a := 3) ?_ this
    exact .step rfl (.step rfl (.step rfl .refl))

/-- `construct` returned a node. -/
theorem push_got {l : Loc R.K α} {b c ctx n} (h : PushCtx b c l ctx) (hn : l.fl.node = some n) (h0 : l.returned = none) :
    Leads 20 At l (.stm (.ite (fun l => l.fl.node.isSome) (.acc ((port R α).ctor fun l => l.arg)) .skip) :: .fn :: ctx) (.constr b c n) := by
  leads
  exact ⟨.constr h hn, h0⟩

/-- The node is constructed. -/
theorem push_constr {l : Loc R.K α} {b c ctx n} (h : PushCtx b c l ctx) (hn : l.fl.node = some n) (h0 : l.returned = none) :
    Leads 20 At l (.fn :: ctx) (match c with | .one _ => .lload n n (.pushed true) | .range acc te v rest => .rlink b acc te v rest n) := by
  cases h with
  | one h1 =>
    leads
    exact ⟨.lload (.one (b := b)) hn hn, h0⟩
  | first h1 h2 h3 =>
    leads
    exact ⟨.rlink0 hn hn h2 h3, h0⟩
  | more h1 h2 h3 h4 h5 =>
    leads
    exact ⟨.rlink hn h2 h3 h4 h5, h0⟩

theorem PushCtx.arg {l : Loc R.K α} {b c ctx} (h : PushCtx b c l ctx) : l.arg = some c.val := by
  cases h <;> assumption

theorem counts_of {l : Loc R.K α} {k : LRest R α} (hk : k ≠ []) (h0 : l.returned = none) : Counts l k := by
  cases k
  · exact (hk rfl).elim
  · exact h0

theorem access (hf : R.Faithful) (t : Nat) (s : SSt R.K α) (l : Loc R.K α) (a : LAcc R α) (k : LRest R α) (p : SPC R.K α)
    (ch : SChoice R.K (Op α) α) (s' : SSt R.K α) (l' : Loc R.K α) (f : Flow) (hI : TextInv R s p) (hat : At l (.stm (.acc a) :: k) p)
    (hr : a.run t s l ch = some (s', l', f)) :
    ∃ p', (a.ok s l ch = true → sokFresh R s p ch) ∧ ststep R t s p ch = some (s', p', none) ∧
      f.ifUb (p' = .err) (Goal 60 l' (f.rest k) p') := by
  obtain ⟨hat, h0⟩ := hat
  replace h0 : l.returned = none := h0
  generalize hk : Item.stm (.acc a) :: k = K at hat
  cases hat with
  | @alloc b c l ctx K a' hc ha =>
    subst hk
    obtain ⟨m, r, h1, h2, rfl, h4, h5, h6⟩ := alloc_access ha hr
    have h7 := same_returned h4
    have hc' := hc.same h4
    cases r with
    | more a₁ =>
      obtain ⟨rfl, i, l₁, k₁, hi, h8, h9, h10⟩ := h6
      refine ⟨.alloc b c a₁, fun h => ⟨h2 h, fun _ => h5 _⟩, by simp only [ststep]; erw [h1]; rfl, ?_⟩
      rcases h10 with h10 | ⟨rfl, h11, o, rfl, h12, h13⟩
      · exact .inl (Leads.reach h9 (Leads.here (n := 0) ⟨.alloc (hc'.same h8) h10, counts_of h10.ne (by rw [same_returned h8, h7, h0])⟩) (by omega))
      · refine .inr ⟨sonNull c, by simp only [squiet, h12, h13]; rfl, ?_⟩
        exact Leads.reach h9 (push_null (hc'.same h8) h11 (by rw [same_returned h8, h7, h0])) (by omega)
    | got n =>
      obtain ⟨rfl, i, l₁, hi, h8, h9, h10⟩ := h6
      refine ⟨.constr b c n, fun h => ⟨h2 h, fun _ => h5 _⟩, by simp only [ststep]; erw [h1]; rfl, ?_⟩
      exact .inl (Leads.reach h9 (push_got (hc'.same h8) h10 (by rw [same_returned h8, h7, h0])) (by omega))
    | null => exact h6.elim
    | badAlloc =>
      obtain ⟨rfl, h8⟩ := h6
      refine ⟨sonThrow c, fun h => ⟨h2 h, fun _ => h5 _⟩, by simp only [ststep]; erw [h1]; rfl, .inl ?_⟩
      simp only [Flow.rest, h8]
      exact (push_throw (ctx := ctx) hc' (by rw [h7, h0])).mono (by decide)
  | @constr b c l ctx n hc hn =>
    cases hk
    have ha := hc.arg
    simp only [Port.ctor, port, hn, ha] at hr
    cases ch <;> simp at hr
    · by_cases hd : (s.mem.data n).isSome
      · simp [hd] at hr
        obtain ⟨rfl, rfl, rfl⟩ := hr
        exact ⟨.err, fun _ => ⟨trivial, by simp⟩, by simp [ststep, hd], rfl⟩
      · simp [hd] at hr
        obtain ⟨rfl, rfl, rfl⟩ := hr
        refine ⟨_, fun _ => ⟨trivial, by simp⟩, ?_, .inl ((push_constr hc hn h0).mono (by decide))⟩
        simp only [ststep, hd]
        cases hc <;> rfl
    · obtain ⟨rfl, rfl, rfl⟩ := hr
      exact ⟨_, fun _ => ⟨trivial, by simp⟩, rfl, .inl ((push_throw (ctx := ctx) hc h0).mono (by decide))⟩
  | @rlink0 b l v rest n h1 h2 h3 h4 =>
    cases hk
    simp only [setNext, h1] at hr
    cases ch <;> simp at hr
    obtain ⟨rfl, rfl, rfl⟩ := hr
    refine ⟨_, fun _ => ⟨trivial, by simp⟩, rfl, .inl (Leads.reach (a := 3) ?_ (prepare_loop (acc := [v]) (rest := rest) (top := n) (e := n) ?_ h4 h2 h1 h0))⟩
    · exact .step rfl (.step rfl (.step rfl .refl))
    · simp [h3, Nat.add_comm]
  | @rlink b l acc top e v rest n h1 h2 h3 h4 h5 =>
    cases hk
    simp only [setNext, h1, h4] at hr
    cases ch <;> simp at hr
    obtain ⟨rfl, rfl, rfl⟩ := hr
    refine ⟨_, fun _ => ⟨trivial, by simp⟩, rfl, .inl (Leads.reach (a := 4) (l' := { l with new_top_node := l.newnode, it := l.it.tail }) ?_
      (prepare_loop (acc := acc ++ [v]) (rest := rest) (top := n) (e := e) ?_ ?_ h1 h5 h0))⟩
    · exact .step rfl (.step rfl (.step rfl (.step rfl .refl)))
    · simp [h2]; omega
    · simp [h3]
  | @lload l top e r ctx hc h1 h2 =>
    cases hk
    simp only [loadTos] at hr
    cases ch <;> simp at hr
    obtain ⟨rfl, rfl, rfl⟩ := hr
    refine ⟨_, fun _ => ⟨trivial, by simp⟩, rfl, .inl (Leads.reach (.step rfl .refl) (link_loop (l := { l with old_tos := s.tosSnap }) ?_ h1 h2 rfl h0))⟩
    cases hc
    · exact .one
    · exact .range (by assumption)
  | @lset l top e o r ctx hc h1 h2 h3 h4 =>
    cases hk
    subst h3
    simp only [setNext, h2] at hr
    cases ch <;> simp at hr
    obtain ⟨rfl, rfl, rfl⟩ := hr
    refine ⟨_, fun _ => ⟨trivial, by simp⟩, rfl, .inl ?_⟩
    simp only [Flow.rest]
    leads
    exact ⟨.lcas hc h1 h2 rfl h4, h0⟩
  | @lcas l top e o r ctx hc h1 h2 h3 h4 =>
    cases hk
    subst h3
    have again : ∀ l' : Loc R.K α, l' = { l with cas := false, old_tos := s.tosSnap } →
        Goal 60 l' (.stm (linkLoop.drop 3) :: .loop linkLoop :: .fn :: ctx) (.lset top e s.tosSnap r) := by
      rintro l' rfl
      refine .inl (Leads.reach (a := 3) ?_ (link_loop (ctx := ctx) (l := { l with cas := false, old_tos := s.tosSnap }) ?_ h1 h2 rfl h0))
      · exact .ff rfl (.step rfl (.step rfl .refl))
      · cases hc
        · exact .one
        · exact .range (by assumption)
    simp only [casTos] at hr
    cases ch <;> simp at hr
    · by_cases he : s.tos = l.old_tos.v
      · simp [he] at hr
        obtain ⟨rfl, rfl, rfl⟩ := hr
        refine ⟨.ret r, fun _ => ⟨trivial, by simp⟩, by simp [ststep, he, h4], .inl (Leads.reach (a := 3) ?_ (link_end (l := { l with cas := true }) (ctx := ctx) (r := r) ?_ h0))⟩
        · exact .tt rfl (.step rfl (.step rfl .refl))
        · cases hc
          · exact .one
          · exact .range (by assumption)
      · simp [he] at hr
        obtain ⟨rfl, rfl, rfl⟩ := hr
        exact ⟨_, fun _ => ⟨trivial, by simp⟩, by simp [ststep, he], again _ rfl⟩
    · obtain ⟨rfl, rfl, rfl⟩ := hr
      exact ⟨_, fun _ => ⟨trivial, by simp⟩, rfl, again _ rfl⟩
  | @pload l thr h1 h2 =>
    cases hk
    simp only [loadTos] at hr
    cases ch <;> simp at hr
    obtain ⟨rfl, rfl, rfl⟩ := hr
    exact ⟨_, fun _ => ⟨trivial, by simp⟩, rfl, Goal.reach (.step rfl .refl) (pop_loop h1 h2 rfl h0)⟩
  | @ptest l thr o n h1 h2 h3 h4 h5 =>
    cases hk
    subst h3
    simp only [readNextSpec, h5] at hr
    cases ch <;> simp at hr
    · obtain ⟨rfl, rfl, rfl⟩ := hr
      refine ⟨.pcas thr l.old_tos (R.K.ptr (s.mem.next n)), fun _ => ⟨trivial, by simp⟩, by simp [ststep, h4], .inl ?_⟩
      simp only [Flow.rest]
      leads
      exact ⟨.pcas h1 h2 rfl h4 rfl rfl, h0⟩
    · obtain ⟨hv, rfl, rfl, rfl⟩ := hr
      rename_i x
      refine ⟨.pcas thr l.old_tos x, fun _ => ⟨trivial, by simp⟩, by simp [ststep, h4, hv], .inl ?_⟩
      simp only [Flow.rest]
      leads
      exact ⟨.pcas h1 h2 rfl h4 rfl rfl, h0⟩
  | @pcas l thr o n nx h1 h2 h3 h4 h5 h6 =>
    cases hk
    subst h3
    have hfr : (casTos (R := R) (α := α) true).ok s l ch = true → s.tosVer < l.old_tos.ver + R.M := fun h => of_decide_eq_true h rfl
    simp only [casTos] at hr
    have again : ∀ l' : Loc R.K α, l' = { l with cas := false, old_tos := s.tosSnap } →
        Goal 60 l' (.stm (consumeOneLoop.drop 5) :: popRest) (.ptest thr s.tosSnap) := by
      rintro l' rfl
      exact Goal.reach (.ff rfl (.step rfl (.step rfl .refl))) (pop_loop h1 h2 rfl h0)
    cases ch <;> simp at hr
    · by_cases he : s.tos = l.old_tos.v
      · simp [he] at hr
        obtain ⟨rfl, rfl, rfl⟩ := hr
        refine ⟨.papply thr n, fun h => ⟨hfr h, by simp⟩, by simp [ststep, he, h4, h6], .inl ?_⟩
        simp only [Flow.rest]
        leads
        exact ⟨.papply h1 h2 h4 h5, h0⟩
      · simp [he] at hr
        obtain ⟨rfl, rfl, rfl⟩ := hr
        exact ⟨_, fun h => ⟨hfr h, by simp⟩, by simp [ststep, he], again _ rfl⟩
    · obtain ⟨rfl, rfl, rfl⟩ := hr
      exact ⟨_, fun h => ⟨hfr h, by simp⟩, rfl, again _ rfl⟩
  | @papply l thr n h1 h2 h3 h4 =>
    cases hk
    simp only [apply, h4] at hr
    cases ch <;> simp at hr
    rcases hd : s.mem.data n with _ | v
    · simp [hd] at hr
      obtain ⟨rfl, rfl, rfl⟩ := hr
      exact ⟨.err, fun _ => ⟨trivial, by simp⟩, by simp [ststep, hd], rfl⟩
    · simp [hd, h1, h2] at hr
      obtain ⟨rfl, rfl, rfl⟩ := hr
      cases thr
      · refine ⟨.pdestroy n v, fun _ => ⟨trivial, by simp⟩, by simp [ststep, hd], .inl ?_⟩
        simp only [Flow.rest]
        leads
        exact ⟨.pdestroy rfl h3, h0⟩
      · refine ⟨.ret (.popped (some v)), fun _ => ⟨trivial, by simp⟩, by simp [ststep, hd], .inl ?_⟩
        simp only [Flow.rest]
        leads
        exact ⟨.fin rfl, by simp [Counts, h0]⟩
  | @pdestroy l n v h1 h2 =>
    cases hk
    simp only [Port.dtor, Port.acc, port, h2] at hr
    cases ch <;> simp at hr
    rcases hd : s.mem.data n with _ | w
    · simp [hd] at hr
      obtain ⟨rfl, rfl, rfl⟩ := hr
      exact ⟨.err, fun _ => ⟨trivial, by simp⟩, by simp [ststep, hd], rfl⟩
    · simp [hd] at hr
      obtain ⟨rfl, rfl, rfl⟩ := hr
      refine ⟨.free (.pop v) n .load, fun _ => ⟨trivial, by simp⟩, by simp [ststep, hd], .inl ?_⟩
      simp only [Flow.rest]
      leads
      exact ⟨.free (.pop h1) (.load h2), h0⟩
  | @free l c n d ctx K hc hd =>
    subst hk
    obtain ⟨m, r, h1, rfl, h4, h5, rfl, h6⟩ := dealloc_access hd hr
    have h7 := same_returned h4
    cases r with
    | some d' =>
      obtain ⟨i, l₁, k₁, hi, h8, h9, h10⟩ := h6
      refine ⟨.free c n d', fun _ => ⟨trivial, fun _ => h5 _⟩, by simp only [ststep]; erw [h1]; rfl,
        .inl (Leads.reach h9 (Leads.here (n := 0) ⟨.free ((hc.same h4).same h8) h10, counts_of h10.ne (by rw [same_returned h8, h7, h0])⟩) (by omega))⟩
    | none =>
      refine ⟨sonFreed c, fun _ => ⟨trivial, fun _ => h5 _⟩, by simp only [ststep]; erw [h1]; rfl, Goal.reach h6 (free_end (hc.same h4) (by rw [h7, h0]))⟩
  | @cload l rev thr h1 =>
    cases hk
    simp only [loadTos] at hr
    cases ch <;> simp at hr
    obtain ⟨rfl, rfl, rfl⟩ := hr
    refine ⟨_, fun _ => ⟨trivial, by simp⟩, rfl, ?_⟩
    have := take_loop (l := { l with old_tos := s.tosSnap }) (rev := rev) (thr := thr) ⟨h1.1, h1.2, h1.3⟩ rfl h0
    cases rev
    · exact Goal.reach (.step rfl (.step rfl .refl)) this
    · exact Goal.reach (.step rfl (.step rfl .refl)) this
  | @ccas l rev thr o n h1 h3 h4 h6 =>
    cases hk
    subst h3
    have hfr : (casTos (R := R) (α := α) true).ok s l ch = true → s.tosVer < l.old_tos.ver + R.M := fun h => of_decide_eq_true h rfl
    simp only [casTos] at hr
    have again : ∀ l' : Loc R.K α, l' = { l with cas := false, old_tos := s.tosSnap } →
        Goal 60 l' (.stm (takeAllLoop.drop 4) :: takeRest rev) (.ctest rev thr s.tosSnap) := by
      rintro l' rfl
      have := take_loop (l := { l with cas := false, old_tos := s.tosSnap }) (rev := rev) (thr := thr) ⟨h1.1, h1.2, h1.3⟩ rfl h0
      cases rev
      · exact Goal.reach (.ff rfl (.step rfl (.step rfl .refl))) this
      · exact Goal.reach (.ff rfl (.step rfl (.step rfl .refl))) this
    cases ch <;> simp at hr
    · by_cases he : s.tos = l.old_tos.v
      · simp [he] at hr
        obtain ⟨rfl, rfl, rfl⟩ := hr
        refine ⟨if rev then .crev thr n none else .capply thr n [], fun h => ⟨hfr h, by simp⟩, by simp [ststep, he, h4, h6], .inl ?_⟩
        cases rev
        · refine Leads.reach (a := 6) (l' := { l with cas := true, nodes_to_consume := l.old_tos.v }) ?_ (apply_loop (acc := []) ⟨h1.1, h1.2, h1.3⟩ .fwd h4 h0)
          exact .tt rfl (.step rfl (.step rfl (.step rfl (.step rfl (.step rfl .refl)))))
        · refine Leads.reach (a := 8) (l' := { l with cas := true, nodes_to_consume := l.old_tos.v, last_node_pointer := none }) ?_
            (reverse_loop ⟨h1.1, h1.2, h1.3⟩ h4 rfl h0)
          exact .tt rfl (.step rfl (.step rfl (.step rfl (.step rfl (.step rfl (.step rfl (.step rfl .refl)))))))
      · simp [he] at hr
        obtain ⟨rfl, rfl, rfl⟩ := hr
        exact ⟨_, fun h => ⟨hfr h, by simp⟩, by simp [ststep, he], again _ rfl⟩
    · obtain ⟨rfl, rfl, rfl⟩ := hr
      exact ⟨_, fun h => ⟨hfr h, by simp⟩, rfl, again _ rfl⟩
  | @crev l thr n last h1 h2 h3 h4 =>
    cases hk
    simp only [readNext, h2] at hr
    cases ch <;> simp at hr
    obtain ⟨rfl, rfl, rfl⟩ := hr
    refine ⟨_, fun _ => ⟨trivial, by simp⟩, rfl, .inl ?_⟩
    simp only [Flow.rest]
    leads
    exact ⟨.crevSet ⟨h1.1, h1.2, h1.3⟩ rfl h3 h4 rfl, h0⟩
  | @crevSet l thr n last nx h1 h2 h3 h4 h5 =>
    cases hk
    simp only [setNext, h2, h4] at hr
    cases ch <;> simp at hr
    obtain ⟨rfl, rfl, rfl⟩ := hr
    refine ⟨_, fun _ => ⟨trivial, by simp⟩, rfl, .inl ?_⟩
    rcases hn : R.K.node nx with _ | m
    · rw [hn] at h5
      refine Leads.reach (a := 9) (l' := { l with last_node_pointer := l.node_pointer, nodes_in_reversed_order := l.nodes_to_consume }) ?_
        (apply_loop (acc := []) ⟨h1.1, h1.2, h1.3⟩ .bwd h3 h0)
      exact .step rfl (.step rfl (.step rfl (.tt (by simp [h5]) (.step rfl (.step rfl (.step rfl (.step rfl (.step rfl .refl))))))))
    · rw [hn] at h5
      have hm : m < R.limit := hI m hn
      refine Leads.reach (a := 9) (l' := { l with last_node_pointer := l.node_pointer, next_handle := R.K.pack (R.K.hnd l.next_node) (R.K.next (R.K.tag l.nodes_to_consume)), nodes_to_consume := R.K.pack (R.K.hnd l.next_node) (R.K.next (R.K.tag l.nodes_to_consume)) }) ?_
        (reverse_loop ⟨h1.1, h1.2, h1.3⟩ ?_ h2 h0)
      · exact .step rfl (.step rfl (.step rfl (.ff (by simp [h5]) (.step rfl (.step rfl (.step rfl (.step rfl (.step rfl .refl))))))))
      · simp only [h5]
        rw [hf.words.ptr_pack _ _ (okPtr.some hm), hf.words.node_hnd _ (okPtr.some hm)]
  | @capply l thr n acc w loop k h1 h2 h3 h4 =>
    cases hk
    simp only [apply, h3] at hr
    cases ch <;> simp at hr
    rcases hd : s.mem.data n with _ | v
    · simp [hd] at hr
      obtain ⟨rfl, rfl, rfl⟩ := hr
      exact ⟨.err, fun _ => ⟨trivial, by simp⟩, by simp [ststep, hd], rfl⟩
    · simp [hd, h2.thr, h2.applied] at hr
      obtain ⟨rfl, rfl, rfl⟩ := hr
      by_cases ht : thr = some acc.length
      · simp only [ht, if_true]
        refine ⟨.ret (.took (acc ++ [v])), fun _ => ⟨trivial, by simp⟩, by simp [ststep, hd], .inl ?_⟩
        simp only [Flow.rest]
        cases h1
        · leads
          exact ⟨.fin rfl, by simp [Counts, h0]⟩
        · leads
          exact ⟨.fin rfl, by simp [Counts, h0]⟩
      · simp only [ht, if_false]
        refine ⟨.cread thr n (acc ++ [v]), fun _ => ⟨trivial, by simp⟩, by simp [ststep, hd, ht], .inl ?_⟩
        simp only [Flow.rest]
        have h5 := h2.count
        cases h1
        · leads
          exact ⟨.cread .fwd ⟨rfl, rfl, by simp [h5]⟩ rfl h4, h0⟩
        · leads
          exact ⟨.cread .bwd ⟨rfl, rfl, by simp [h5]⟩ rfl h4, h0⟩
  | @cread l thr n acc w loop k h1 h2 h3 h4 =>
    cases hk
    simp only [readNext, h3] at hr
    cases ch <;> simp at hr
    obtain ⟨rfl, rfl, rfl⟩ := hr
    refine ⟨_, fun _ => ⟨trivial, by simp⟩, rfl, .inl ?_⟩
    simp only [Flow.rest]
    rcases hn : R.K.node (R.K.ptr (s.mem.next n)) with _ | m
    · cases h1
      · leads
        exact ⟨.cdestroy (q := none) (loop := forwardLoop) .fwd ⟨h2.1, h2.2, h2.3⟩ h4 hn (by simp), h0⟩
      · leads
        exact ⟨.cdestroy (q := none) (loop := backwardLoop) .bwd ⟨h2.1, h2.2, h2.3⟩ h4 hn (by simp), h0⟩
    · cases h1
      · leads
        exact ⟨.cdestroy (q := some m) (loop := forwardLoop) .fwd ⟨h2.1, h2.2, h2.3⟩ h4 hn
          (fun _ hq => by cases hq; exact ⟨_, by simp only [hn]; rfl⟩), h0⟩
      · leads
        exact ⟨.cdestroy (q := some m) (loop := backwardLoop) .bwd ⟨h2.1, h2.2, h2.3⟩ h4 hn
          (fun _ hq => by cases hq; exact ⟨_, by simp only [hn]; rfl⟩), h0⟩
  | @cdestroy l thr n acc nx w loop k q h1 h2 h3 h4 h5 =>
    cases hk
    simp only [Port.dtor, Port.acc, port, h3] at hr
    cases ch <;> simp at hr
    rcases hd : s.mem.data n with _ | w
    · simp [hd] at hr
      obtain ⟨rfl, rfl, rfl⟩ := hr
      exact ⟨.err, fun _ => ⟨trivial, by simp⟩, by simp [ststep, hd], rfl⟩
    · simp [hd] at hr
      obtain ⟨rfl, rfl, rfl⟩ := hr
      refine ⟨.free (.cons thr acc nx) n .load, fun _ => ⟨trivial, by simp⟩, by simp [ststep, hd], .inl ?_⟩
      simp only [Flow.rest]
      leads
      refine ⟨.free (.cons h1 ⟨h2.1, h2.2, h2.3⟩ h4 ?_) (.load h3), h0⟩
      intro m hm
      obtain ⟨t, ht⟩ := h5 m hm
      have hl : m < R.limit := hI m (h4.trans hm)
      simp only [ht]
      rw [hf.words.ptr_pack _ _ (okPtr.some hl), hf.words.node_hnd _ (okPtr.some hl)]
  | @eload l =>
    cases hk
    simp only [loadTos] at hr
    cases ch <;> simp at hr
    obtain ⟨rfl, rfl, rfl⟩ := hr
    refine ⟨_, fun _ => ⟨trivial, by simp⟩, rfl, .inl ?_⟩
    simp only [Flow.rest]
    leads
    exact ⟨.fin rfl, by simp [Counts, h0]⟩
  | @rsv l k h1 =>
    cases hk
    simp only [Port.osAllocate, Port.acc, port] at hr
    cases ch <;> simp at hr
    · by_cases hl : s.mem.nalloc < R.limit <;> simp [hl] at hr
      obtain ⟨rfl, rfl, rfl⟩ := hr
      refine ⟨.free (.rsv k) s.mem.nalloc .load, fun _ => ⟨trivial, by simp⟩, by simp [ststep, hl], .inl ?_⟩
      simp only [Flow.rest]
      leads
      exact ⟨.free (.rsv h1) (.load rfl), h0⟩
    · obtain ⟨rfl, rfl, rfl⟩ := hr
      refine ⟨.ret .threw, fun _ => ⟨trivial, by simp⟩, rfl, .inl ?_⟩
      simp only [Flow.rest]
      leads
      exact ⟨.fin rfl, by simp [Counts, h0]⟩
  | @undo l b n h1 =>
    cases hk
    simp only [readNext, h1] at hr
    cases ch <;> simp at hr
    obtain ⟨rfl, rfl, rfl⟩ := hr
    refine ⟨_, fun _ => ⟨trivial, by simp⟩, rfl, .inl ?_⟩
    simp only [Flow.rest]
    leads
    exact ⟨.undoD rfl rfl, h0⟩
  | @undoD l b n nx h1 h2 =>
    cases hk
    simp only [Port.dtor, Port.acc, port, h1] at hr
    cases ch <;> simp at hr
    rcases hd : s.mem.data n with _ | w
    · simp [hd] at hr
      obtain ⟨rfl, rfl, rfl⟩ := hr
      exact ⟨.err, fun _ => ⟨trivial, by simp⟩, by simp [ststep, hd], rfl⟩
    · simp [hd] at hr
      obtain ⟨rfl, rfl, rfl⟩ := hr
      refine ⟨.free (.undo nx) n .load, fun _ => ⟨trivial, by simp⟩, by simp [ststep, hd], .inl ?_⟩
      simp only [Flow.rest]
      leads
      exact ⟨.free (.undo h2) (.load h1), h0⟩
  | fin => simp at hk

/-- The beginning of a call. -/
theorem call_goal (t : Nat) (o : Op α) (l : Loc R.K α) (a : LStm R α) (hb : (program R α).body t o = some (l, a))
    (hok : ∀ b, o ≠ .pushRange b []) : ∃ p, sstart R o = some p ∧ Goal 60 l [.stm a] p := by
  cases o with
  | push b v =>
    simp [program] at hb
    obtain ⟨rfl, rfl⟩ := hb
    refine ⟨_, rfl, .inl ?_⟩
    leads
    exact ⟨.alloc (.one rfl) .load, rfl⟩
  | pushRange b vs =>
    by_cases hfx : R.fixed = true <;> simp [program, hfx] at hb
    obtain ⟨rfl, rfl⟩ := hb
    cases vs with
    | nil => exact (hok b rfl).elim
    | cons v rest =>
      refine ⟨_, by simp [sstart, hfx]; rfl, .inl ?_⟩
      leads
      exact ⟨.alloc (.first rfl rfl rfl) .load, rfl⟩
  | pop thr =>
    simp [program] at hb
    obtain ⟨rfl, rfl⟩ := hb
    refine ⟨_, rfl, .inl ?_⟩
    leads
    exact ⟨.pload rfl rfl, rfl⟩
  | consumeAll rev thr =>
    cases rev
    · simp [program] at hb
      obtain ⟨rfl, rfl⟩ := hb
      refine ⟨_, rfl, .inl ?_⟩
      leads
      exact ⟨.cload (rev := false) ⟨rfl, rfl, rfl⟩, rfl⟩
    · simp [program] at hb
      obtain ⟨rfl, rfl⟩ := hb
      refine ⟨_, rfl, .inl ?_⟩
      leads
      exact ⟨.cload (rev := true) ⟨rfl, rfl, rfl⟩, rfl⟩
  | empty =>
    simp [program] at hb
    obtain ⟨rfl, rfl⟩ := hb
    refine ⟨_, rfl, .inl ?_⟩
    leads
    exact ⟨.eload, rfl⟩
  | reserve k =>
    by_cases hfx : R.fixed = true <;> simp [program, hfx] at hb
    obtain ⟨rfl, rfl⟩ := hb
    refine ⟨.rsv k, by simp [sstart, hfx], ?_⟩
    refine Goal.reach (a := 6) (l' := { Loc.init R.zero with count := k }) ?_ (reserve_loop (by simp [Loc.init]) rfl)
    exact .step rfl (.step rfl (.step rfl (.step rfl (.step rfl (.step rfl .refl)))))

theorem call_start (t : Nat) (s : SSt R.K α) (o : Op α) (l : Loc R.K α) (a : LStm R α) (hb : (program R α).body t o = some (l, a))
    (hok : ∀ b, o ≠ .pushRange b []) :
    ∃ ch p, isSpur ch = false ∧ sokFresh R s .idle ch ∧ ststep R t s .idle ch = some (s, p, some (.inv t o)) ∧
      Soon (smach α R) (sokFresh R) isSpur (Leads 60 At l [.stm a]) p := by
  obtain ⟨p, hp, hg⟩ := call_goal t o l a hb hok
  exact ⟨.call o, p, rfl, ⟨trivial, fun b h => hok b (SChoice.call.inj h)⟩, by simp [ststep, hp], hg.soon⟩

/-- The text refines the machine on words. -/
theorem refines (hf : R.Faithful) :
    Refines (program R α) (smach α R) (fun _ o => ∀ b, o ≠ .pushRange b []) (sokFresh R) isSpur .err (fun _ => TextInv R)
      At 60 where
  call := call_start
  head _ _ _ h := h.1.head
  access t s l a k p ch s' l' f hI hat hok hr := by
    obtain ⟨p', h1, h2, h3⟩ := access hf t s l a k p ch s' l' f hI hat hr
    refine ⟨p', h1 hok, h2, ?_⟩
    cases f
    · exact Goal.soon h3
    · exact Goal.soon h3
    · exact h3
  fin l p h := by
    obtain ⟨h, -⟩ := h
    generalize hk : ([] : LRest R α) = K at h
    cases h with
    | fin hr => rw [← hr]; rfl
    | alloc _ h => exact (h.ne hk.symm).elim
    | free _ h => exact (h.ne hk.symm).elim
    | _ => simp [dtorRest] at hk
  res t s r := ⟨.go, rfl, ⟨trivial, by simp⟩, rfl⟩
  env t s p ch s' h := by simp [program] at h

end Verif.Stack.Code
