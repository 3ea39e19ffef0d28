import Verif.Queue.Text
import Verif.Queue.WordProps

/-!
# Queue: the program text refines the machine on words (C52)

No further code of /repo is modelled here.
-/

namespace Verif.Queue.Code
open Lin Text

variable {α : Type} {R : Rep}

abbrev LRest (R : Rep) (α : Type) := PRest R α (SSt R.K α) (Loc R.K α) (Op α)

/-- The end of a call. -/
def base : LRest R α := [.fn, .handler (.set fun l => { l with result := .threw })]

/-- Within `construct` in `do_push`. -/
def ctorRest (b : Bool) : LRest R α := .fn :: .stm ((doPush b).drop 1) :: base

/-- Within the loop of `do_push`. -/
def pushRest : LRest R α := .loop pushLoop :: base

/-- Within the loop of `pop`. -/
def popRest : LRest R α := .loop popLoop :: base

/-- Within the loop of `reserve`. -/
def reserveRest : LRest R α := .loop reserveLoop :: .stm (reserve.drop 2) :: base

/-- What follows the compare-exchange of `head_`, after the call of `destruct`. -/
def poppedRest : LRest R α := .stm (.set (fun l => { l with result := .popped l.ret }) ;; .ret) :: popRest

/-- Where `deallocate( n )` was called from. -/
inductive FreeCtx : FreeK α → Loc R.K α → LRest R α → Prop where
  | pop {l v} : l.ret = some v → FreeCtx (.pop v) l (.fn :: poppedRest)
  | rsv {l k} : l.i + (k + 1) = l.count → FreeCtx (.rsv k) l (.stm (reserveLoop.drop 3) :: reserveRest)

/-- What follows `tail_.compare_exchange_strong`. -/
inductive SwingCtx : TailK → Loc R.K α → LRest R α → Prop where
  | retryPush {l n} : l.n = some n → l.node_handle = R.K.hnd (some n) → SwingCtx (.retryPush n) l pushRest
  | donePush {l} : SwingCtx .donePush l (.stm (.set (fun l => { l with result := .pushed true }) ;; .ret) :: pushRest)
  | retryPop {l} : SwingCtx .retryPop l popRest

/-- What the result of a call has to do with the parameter of `pop`. -/
def Output (l : Loc R.K α) : Prop :=
  match l.result with
  | .popped (some v) => l.ret = some v
  | _ => True

/-- Places in the text and program counters of the machine on words. -/
inductive At : Loc R.K α → LRest R α → SPC R.K α → Prop where
  | alloc {b v l k a} : l.t = some v →
      AllocAt (port R α) b (.stm (.ite (fun l => l.fl.node.isSome) nodeCtor .skip) :: ctorRest b) l k a → At l k (.alloc b v a)
  | constr {b v l n} : l.t = some v → l.fl.node = some n →
      At l (.stm (.acc ((port R α).ctor fun l => l.t)) :: .stm (nodeCtor.drop 1) :: ctorRest b) (.constr b v n)
  | nload {b v l n} : l.fl.node = some n → At l (.stm (.acc ctorLoad) :: .stm (nodeCtor.drop 2) :: ctorRest b) (.nload b v n)
  | nstore {b v l n o} : l.fl.node = some n → l.new_next = R.K.pack (R.K.hnd none) (R.K.next (R.K.tag o)) →
      At l (.stm (.acc ctorStore) :: ctorRest b) (.nstore b v n o)
  | pTail {l n} : l.n = some n → l.node_handle = R.K.hnd (some n) →
      At l (.stm (.acc (loadTail fun l x => { l with tail := x })) :: .stm (pushLoop.drop 1) :: pushRest) (.pTail n)
  | pNext {l n T} : l.n = some n → l.node_handle = R.K.hnd (some n) → l.tail = T → l.tail_node = R.K.node (R.K.ptr T.v) →
      At l (.stm (.acc (loadNext (fun l => l.tail_node) fun s l _ => s.tailVer != l.tail.ver)) :: .stm (pushLoop.drop 3) :: pushRest)
        (.pNext n T)
  | pCheck {l n T N x} : l.n = some n → l.node_handle = R.K.hnd (some n) → l.tail = T → R.K.node (R.K.ptr T.v) = some x → l.tail_node = some x →
      l.next = N → l.next_ptr = R.K.node (R.K.ptr N.v) →
      At l (.stm (.acc (loadTail (fun l x => { l with tail2 := x.v }) tailFresh)) :: .stm (pushLoop.drop 5) :: pushRest) (.pCheck n T N)
  | pCas {l n T N x} : l.n = some n → l.node_handle = R.K.hnd (some n) → l.tail = T → R.K.node (R.K.ptr T.v) = some x → l.tail_node = some x →
      l.next = N → l.new_tail_next = R.K.pack (R.K.hnd (some n)) (R.K.next (R.K.tag N.v)) →
      At l (.stm (.acc casNext) :: .stm (appendNode.drop 2) :: pushRest) (.pCas n T N)
  | swing {l k T y ctx} : SwingCtx k l ctx → l.tail = T → l.new_tail = R.K.pack y (R.K.next (R.K.tag T.v)) →
      At l (.stm (.acc casTail) :: ctx) (.swing k T y)
  | cHead {l} : At l (.stm (.acc (loadHead fun l x => { l with head := x })) :: .stm (popLoop.drop 1) :: popRest) .cHead
  | cTail {l H} : l.head = H → l.head_ptr = R.K.node (R.K.ptr H.v) →
      At l (.stm (.acc (loadTail fun l x => { l with tail := x })) :: .stm (popLoop.drop 3) :: popRest) (.cTail H)
  | cNext {l H T} : l.head = H → l.head_ptr = R.K.node (R.K.ptr H.v) → l.tail = T →
      At l (.stm (.acc (loadNext (fun l => l.head_ptr) fun s l x => s.headVer != l.head.ver && R.K.node (R.K.ptr s.tail) != some x)) ::
        .stm (popLoop.drop 4) :: popRest) (.cNext H T)
  | cCheck {l H T N x} : l.head = H → R.K.node (R.K.ptr H.v) = some x → l.tail = T → l.next = N → l.next_ptr = R.K.node (R.K.ptr N.v) →
      At l (.stm (.acc (loadHead (fun l x => { l with head2 := x.v }) headFresh)) :: .stm (popLoop.drop 6) :: popRest) (.cCheck H T N)
  | cData {l H y x nx} : l.head = H → R.K.node (R.K.ptr H.v) = some x → l.next_ptr = some y → nx = R.K.ptr l.next.v → R.K.node nx = some y →
      At l (.stm (.acc copyPayload) :: .stm (takeFirst.drop 2) :: popRest) (.cData H y nx)
  | cCas {l H x nx v y} : l.next_ptr = some y → R.K.node nx = some y → l.head = H → R.K.node (R.K.ptr H.v) = some x → l.new_head = R.K.pack nx (R.K.next (R.K.tag H.v)) → l.ret = some v →
      At l (.stm (.acc casHead) :: .stm (takeFirst.drop 4) :: popRest) (.cCas H nx v)
  | cDestroy {l n v} : l.fl.n = some n → l.ret = some v →
      At l (.stm (.acc dtor) :: .stm (.fn (port R α).deallocate) :: .fn :: poppedRest) (.cDestroy n v)
  | free {l c n d ctx k} : FreeCtx c l ctx → DeallocAt (port R α) n ctx l k d → At l k (.free c n d)
  | eHead {l} : At l (.stm (.acc evalFirst) :: .stm (isEmpty.drop 1) :: base) .eHead
  | eTail {l H} : l.left = R.K.ptr H.v →
      At l (.stm (.acc (loadTail fun l x => { l with right := R.K.ptr x.v })) :: .stm (isEmpty.drop 2) :: base) (.eTail H)
  | eHead2 {l T} : l.right = R.K.ptr T.v →
      At l (.stm (.acc (loadHead fun l x => { l with left := R.K.ptr x.v })) :: .stm (isEmpty.drop 2) :: base) (.eHead2 T)
  | rsv {l k} : l.i + (k + 1) = l.count →
      At l (.stm (.acc ((port R α).osAllocate fun v n => { v with n := n })) :: .stm (reserveLoop.drop 2) :: reserveRest) (.rsv (k + 1))
  | fin {l r} : l.result = r → (ho : Output l := by simp [Output, *]) → At l [] (.ret r)

/-- Only queues that are not of fixed size have `reserve`. -/
def TextInv (R : Rep) (_ : SSt R.K α) : SPC R.K α → Prop
  | .rsv _ => R.fixed = false
  | _ => True

theorem At.head {l : Loc R.K α} {k p} (h : At l k p) : ctl l k = none := by
  cases h with
  | alloc _ h => exact h.head
  | free _ h => exact h.head
  | _ => rfl

/-- Steps of the machine on words that are not steps of the text. -/
def squiet (R : Rep) : SPC R.K α → Option (SPC R.K α)
  | .alloc b _ (.test o) => if (R.K.node (R.K.ptr o.v)).isNone && (R.fixed || b) then some (.ret (.pushed false)) else none
  | .rsv 0 => some (.ret .reserved)
  | _ => none

theorem squiet_silent {p p' : SPC R.K α} (h : squiet R p = some p') : Silent (smach α R) (sokFresh R) isSpur p p' := by
  cases p with
  | alloc b v a =>
    cases a with
    | test o =>
      simp only [squiet] at h
      split at h
      · rename_i h1
        rw [Bool.and_eq_true, Option.isNone_iff_eq_none] at h1
        obtain ⟨h12, h13⟩ := h1
        cases h
        exact fun t s => ⟨⟨.go, rfl, trivial, by simp [smach, ststep, saStep, h12, h13]⟩,
          fun ch y h => by cases ch <;> simp [smach, ststep, saStep, h12, h13] at h; exact h.symm⟩
      · cases h
    | _ => simp [squiet] at h
  | rsv k =>
    cases k <;> simp [squiet] at h
    subst h
    exact fun t s => ⟨⟨.go, rfl, trivial, by simp [smach, ststep]⟩,
      fun ch y h => by cases ch <;> simp [smach, ststep] at h; exact h.symm⟩
  | _ => simp [squiet] at h

/-- What the thread has to do leads to `p`, perhaps after such a step. -/
def Goal (n : Nat) (l : Loc R.K α) (k : LRest R α) (p : SPC R.K α) : Prop :=
  Leads n At l k p ∨ ∃ p', squiet R p = some p' ∧ Leads n At l k p'

theorem Goal.soon {n : Nat} {l : Loc R.K α} {k : LRest R α} {p : SPC R.K α} (h : Goal n l k p) :
    Soon (smach α R) (sokFresh R) isSpur (Leads n At l k) p :=
  h.imp id fun ⟨p', h1, h2⟩ => ⟨p', squiet_silent h1, h2⟩

theorem Goal.reach {n a b : Nat} {l l' : Loc R.K α} {k k' : LRest R α} {p : SPC R.K α} (h : Text.Reach a l k l' k') (hl : Goal b l' k' p)
    (hn : a + b ≤ n := by decide) : Goal n l k p :=
  hl.imp (fun hl => Leads.reach h hl hn) fun ⟨p', h1, h2⟩ => ⟨p', h1, Leads.reach h h2 hn⟩

theorem push_loop {l : Loc R.K α} {n} (h1 : l.n = some n) (h2 : l.node_handle = R.K.hnd (some n)) :
    Leads 20 At l pushRest (.pTail n) := by
  leads
  exact .pTail h1 h2

theorem pop_loop {l : Loc R.K α} : Leads 20 At l popRest .cHead := by
  leads
  exact .cHead

theorem reserve_loop {l : Loc R.K α} {k} (h1 : l.i + k = l.count) : Goal 20 l (.stm reserveLoop :: reserveRest) (.rsv k) := by
  cases k with
  | zero =>
    refine .inr ⟨.ret .reserved, rfl, ?_⟩
    have h2 : l.i = l.count := by omega
    leads
    exact .fin rfl
  | succ k =>
    have h2 : ¬ l.i = l.count := by omega
    left
    leads
    exact .rsv h1

/-- `construct` returned null. -/
theorem push_null {l : Loc R.K α} {b} (hn : l.fl.node = none) :
    Leads 20 At l (.stm (.ite (fun l => l.fl.node.isSome) nodeCtor .skip) :: ctorRest b) (.ret (.pushed false)) := by
  leads
  exact .fin rfl

/-- `construct` threw. -/
theorem push_throw {l : Loc R.K α} : Leads 20 At l (toHandler base) (.ret .threw) := by
  leads
  exact .fin rfl

theorem FreeCtx.same {l l' : Loc R.K α} {c ctx} (h : FreeCtx c l ctx) (hs : (port R α).Same l l') : FreeCtx c l' ctx := by
  obtain ⟨x, rfl⟩ := hs
  cases h with
  | pop h1 => exact .pop h1
  | rsv h1 => exact .rsv h1

theorem same_t {l l' : Loc R.K α} (hs : (port R α).Same l l') : l'.t = l.t := by
  obtain ⟨x, rfl⟩ := hs; rfl

/-- `deallocate` returned. -/
theorem free_end {l : Loc R.K α} {c ctx} (h : FreeCtx c l ctx) : Goal 40 l ctx (sonFreed c) := by
  cases h with
  | pop h1 =>
    left
    leads
    exact .fin (by simp [h1])
  | rsv h1 =>
    refine Goal.reach (a := 2) (l' := { l with i := l.i + 1 }) ?_ (reserve_loop (by simp; omega))
    exact .step rfl (.step rfl .refl)

/-- `construct` returned a node. -/
theorem push_got {l : Loc R.K α} {b v n} (h : l.t = some v) (hn : l.fl.node = some n) :
    Leads 20 At l (.stm (.ite (fun l => l.fl.node.isSome) nodeCtor .skip) :: ctorRest b) (.constr b v n) := by
  leads
  exact .constr h hn

theorem swing_end {l : Loc R.K α} {k ctx} (h : SwingCtx k l ctx) : Leads 20 At l ctx (sonSwung k) := by
  cases h with
  | retryPush h1 h2 => exact push_loop h1 h2
  | donePush =>
    leads
    exact .fin rfl
  | retryPop => exact pop_loop

theorem access (t : Nat) (s : SSt R.K α) (l : Loc R.K α) (a : LAcc R α) (k : LRest R α) (p : SPC R.K α)
    (ch : SChoice R.K (Op α) α) (s' : SSt R.K α) (l' : Loc R.K α) (f : Flow) (hat : At l (.stm (.acc a) :: k) p)
    (hr : a.run t s l ch = some (s', l', f)) :
    ∃ p', (a.ok s l ch = true → sokFresh R s p ch) ∧ ststep R t s p ch = some (s', p', none) ∧
      f.ifUb (p' = .err) (Goal 60 l' (f.rest k) p') := by
  generalize hk : Item.stm (.acc a) :: k = K at hat
  cases hat with
  | @alloc b v l K a' hc ha =>
    subst hk
    obtain ⟨m, r, h1, h2, rfl, h4, h5, h6⟩ := alloc_access ha hr
    have hc' := (same_t h4).trans hc
    cases r with
    | more a₁ =>
      obtain ⟨rfl, i, l₁, k₁, hi, h8, h9, h10⟩ := h6
      refine ⟨.alloc b v a₁, h2, by simp only [ststep]; erw [h1]; rfl, ?_⟩
      rcases h10 with h10 | ⟨rfl, h11, o, rfl, h12, h13⟩
      · exact .inl (Leads.reach h9 (Leads.here (n := 0) (.alloc ((same_t h8).trans hc') h10)) (by omega))
      · refine .inr ⟨.ret (.pushed false), by simp only [squiet, h12, h13]; rfl, ?_⟩
        exact Leads.reach h9 (push_null h11) (by omega)
    | got n =>
      obtain ⟨rfl, i, l₁, hi, h8, h9, h10⟩ := h6
      refine ⟨.constr b v n, h2, by simp only [ststep]; erw [h1]; rfl, ?_⟩
      exact .inl (Leads.reach h9 (push_got ((same_t h8).trans hc') h10) (by omega))
    | null => exact h6.elim
    | badAlloc =>
      obtain ⟨rfl, h8⟩ := h6
      refine ⟨.ret .threw, h2, by simp only [ststep]; erw [h1]; rfl, .inl ?_⟩
      simp only [Flow.rest, h8]
      exact push_throw.mono (by decide)
  | @constr b v l n ha hn =>
    cases hk
    simp only [Port.ctor, port, hn, ha] at hr
    cases ch <;> simp at hr
    · by_cases hd : (s.mem.data n).isSome
      · simp [hd] at hr
        obtain ⟨rfl, rfl, rfl⟩ := hr
        exact ⟨.err, fun _ => trivial, by simp [ststep, hd], rfl⟩
      · simp [hd] at hr
        obtain ⟨rfl, rfl, rfl⟩ := hr
        refine ⟨.nload b v n, fun _ => trivial, by simp [ststep, hd], .inl ?_⟩
        simp only [Flow.rest]
        leads
        exact .nload hn
    · obtain ⟨rfl, rfl, rfl⟩ := hr
      exact ⟨_, fun _ => trivial, rfl, .inl (push_throw.mono (by decide))⟩
  | @nload b v l n hn =>
    cases hk
    simp only [ctorLoad, hn] at hr
    cases ch <;> simp at hr
    obtain ⟨rfl, rfl, rfl⟩ := hr
    refine ⟨_, fun _ => trivial, rfl, .inl ?_⟩
    simp only [Flow.rest]
    leads
    exact .nstore hn rfl
  | @nstore b v l n o hn hx =>
    cases hk
    simp only [ctorStore, hn, hx] at hr
    cases ch <;> simp at hr
    obtain ⟨rfl, rfl, rfl⟩ := hr
    refine ⟨_, fun _ => trivial, rfl, .inl ?_⟩
    simp only [Flow.rest]
    leads
    exact .pTail hn (by simp [hn])
  | @pTail l n h1 h2 =>
    cases hk
    simp only [loadTail] at hr
    cases ch <;> simp at hr
    obtain ⟨rfl, rfl, rfl⟩ := hr
    refine ⟨_, fun _ => trivial, rfl, .inl ?_⟩
    simp only [Flow.rest]
    leads
    exact .pNext h1 h2 rfl rfl
  | @pNext l n T h1 h2 h3 h4 =>
    cases hk
    subst h3
    rcases hx : R.K.node (R.K.ptr l.tail.v) with _ | x
    · rw [hx] at h4
      simp only [loadNext, h4] at hr
      cases hr
      exact ⟨.err, fun _ => trivial, by simp [ststep, hx], rfl⟩
    · simp only [loadNext, h4, hx] at hr
      cases ch <;> simp at hr
      · obtain ⟨rfl, rfl, rfl⟩ := hr
        refine ⟨_, fun _ => trivial, by simp only [ststep, hx]; rfl, .inl ?_⟩
        simp only [Flow.rest]
        leads
        exact .pCheck h1 h2 rfl hx rfl rfl rfl
      · obtain ⟨hv, rfl, rfl, rfl⟩ := hr
        refine ⟨_, fun _ => trivial, by simp only [ststep, hx, if_neg hv]; rfl, .inl ?_⟩
        simp only [Flow.rest]
        leads
        exact .pCheck h1 h2 rfl hx rfl rfl rfl
  | @pCheck l n T N z h1 h2 h3 hz h4 h5 h6 =>
    cases hk
    subst h3 h5
    have hfr := fun hok => show s.tailVer < l.tail.ver + R.M from of_decide_eq_true hok
    simp only [loadTail] at hr
    cases ch <;> simp at hr
    obtain ⟨rfl, rfl, rfl⟩ := hr
    by_cases he : s.tail = l.tail.v
    · rcases hx : R.K.node (R.K.ptr l.next.v) with _ | y
      · rw [hx] at h6
        refine ⟨.pCas n l.tail l.next, hfr, by simp [ststep, he, spBranch, hx], .inl ?_⟩
        simp only [Flow.rest]
        refine Leads.tt (by simp [SSt.tailSnap, he]) (Leads.tt (by simp [h6]) ?_)
        leads
        exact .pCas h1 h2 rfl hz h4 rfl (by simp [h2])
      · rw [hx] at h6
        refine ⟨.swing (.retryPush n) l.tail (R.K.hnd (some y)), hfr, by simp [ststep, he, spBranch, hx], .inl ?_⟩
        simp only [Flow.rest]
        refine Leads.tt (by simp [SSt.tailSnap, he]) (Leads.ff (by simp [h6]) ?_)
        leads
        exact .swing (.retryPush h1 h2) rfl (by simp [h6])
    · refine ⟨.pTail n, hfr, by simp [ststep, he], .inl ?_⟩
      simp only [Flow.rest]
      exact Leads.reach (a := 2) (.ff (by simpa [SSt.tailSnap] using fun h => he h.symm) (.step rfl .refl)) (push_loop h1 h2)
  | @pCas l n T N x h1 h2 h3 hx h4 h5 h6 =>
    cases hk
    subst h3 h5
    have hfr : casNext.ok s l ch = true → sfresh R s (.pCas n l.tail l.next) := by
      intro hok y hy
      rw [hx] at hy
      cases hy
      simpa [casNext, h4] using hok
    have again : ∀ l' : Loc R.K α, l'.n = some n → l'.node_handle = R.K.hnd (some n) → l'.cas = false →
        Goal 60 l' (.stm (appendNode.drop 2) :: pushRest) (.pTail n) := by
      intro l' h1 h2 h3
      exact .inl (Leads.reach (a := 2) (.ff h3 (.step rfl .refl)) (push_loop h1 h2))
    simp only [casNext, h4, h6] at hr
    cases ch <;> simp at hr
    · by_cases he : s.mem.next x = l.next.v
      · simp [he] at hr
        obtain ⟨rfl, rfl, rfl⟩ := hr
        refine ⟨.swing .donePush l.tail (R.K.hnd (some n)), hfr, by simp [ststep, he, hx], .inl ?_⟩
        simp only [Flow.rest]
        leads
        exact .swing .donePush rfl (by simp [h2])
      · simp [he] at hr
        obtain ⟨rfl, rfl, rfl⟩ := hr
        exact ⟨_, hfr, by simp only [ststep, hx, if_neg he], again _ h1 h2 rfl⟩
    · obtain ⟨rfl, rfl, rfl⟩ := hr
      exact ⟨_, hfr, rfl, again _ h1 h2 rfl⟩
  | @swing l c T y ctx h1 h2 h3 =>
    cases hk
    subst h2
    have hfr := fun hok => show s.tailVer < l.tail.ver + R.M from of_decide_eq_true hok
    simp only [casTail, h3] at hr
    cases ch <;> simp at hr
    by_cases he : s.tail = l.tail.v
    · simp [he] at hr
      obtain ⟨rfl, rfl, rfl⟩ := hr
      refine ⟨_, hfr, by simp only [ststep, SSt.swingTail, he, if_true]; rfl, .inl ((swing_end ?_).mono (by decide))⟩
      cases h1
      · exact .retryPush (by assumption) (by assumption)
      · exact .donePush
      · exact .retryPop
    · simp [he] at hr
      obtain ⟨rfl, rfl, rfl⟩ := hr
      refine ⟨_, hfr, by simp only [ststep, SSt.swingTail, he, if_false]; rfl, .inl ((swing_end ?_).mono (by decide))⟩
      cases h1
      · exact .retryPush (by assumption) (by assumption)
      · exact .donePush
      · exact .retryPop
  | @cHead l =>
    cases hk
    simp only [loadHead] at hr
    cases ch <;> simp at hr
    obtain ⟨rfl, rfl, rfl⟩ := hr
    refine ⟨_, fun _ => trivial, rfl, .inl ?_⟩
    simp only [Flow.rest]
    leads
    exact .cTail rfl rfl
  | @cTail l H h1 h2 =>
    cases hk
    simp only [loadTail] at hr
    cases ch <;> simp at hr
    obtain ⟨rfl, rfl, rfl⟩ := hr
    refine ⟨_, fun _ => trivial, rfl, .inl ?_⟩
    simp only [Flow.rest]
    leads
    exact .cNext h1 h2 rfl
  | @cNext l H T h1 h2 h3 =>
    cases hk
    subst h1 h3
    rcases hx : R.K.node (R.K.ptr l.head.v) with _ | x
    · rw [hx] at h2
      simp only [loadNext, h2] at hr
      cases hr
      exact ⟨.err, fun _ => trivial, by simp [ststep, hx], rfl⟩
    · simp only [loadNext, h2, hx] at hr
      cases ch <;> simp at hr
      · obtain ⟨rfl, rfl, rfl⟩ := hr
        refine ⟨_, fun _ => trivial, by simp only [ststep, hx]; rfl, .inl ?_⟩
        simp only [Flow.rest]
        leads
        exact .cCheck rfl hx rfl rfl rfl
      · obtain ⟨hv, rfl, rfl, rfl⟩ := hr
        refine ⟨_, fun _ => trivial, by simp only [ststep, hx]; rw [if_neg (by simpa [not_or] using hv)], .inl ?_⟩
        simp only [Flow.rest]
        leads
        exact .cCheck rfl hx rfl rfl rfl
  | @cCheck l H T N x h1 h2 h3 h4 h5 =>
    cases hk
    subst h1 h3 h4
    have hfr := fun hok => show s.headVer < l.head.ver + R.M from of_decide_eq_true hok
    simp only [loadHead] at hr
    cases ch <;> simp at hr
    obtain ⟨rfl, rfl, rfl⟩ := hr
    by_cases he : s.head = l.head.v
    · refine ⟨scBranch l.head l.tail l.next, hfr, by simp only [ststep, he, if_true], .inl ?_⟩
      simp only [Flow.rest]
      refine Leads.tt (by simp [SSt.headSnap, he]) ?_
      by_cases ht : R.K.ptr l.head.v = R.K.ptr l.tail.v
      · refine Leads.tt (by simp [ht]) ?_
        rcases hx : R.K.node (R.K.ptr l.next.v) with _ | y
        · rw [hx] at h5
          simp only [scBranch, ht, if_true, hx]
          leads
          exact .fin rfl
        · rw [hx] at h5
          simp only [scBranch, ht, if_true, hx]
          leads
          exact .swing .retryPop rfl rfl
      · refine Leads.ff (by simp [ht]) ?_
        rcases hx : R.K.node (R.K.ptr l.next.v) with _ | y
        · rw [hx] at h5
          simp only [scBranch, ht, if_false, hx]
          exact Leads.reach (a := 3) (.step rfl (.tt (by simp [h5]) (.step rfl .refl))) pop_loop
        · rw [hx] at h5
          simp only [scBranch, ht, if_false, hx]
          leads
          exact .cData rfl h2 h5 rfl hx
    · refine ⟨.cHead, hfr, by simp only [ststep, he, if_false], .inl ?_⟩
      simp only [Flow.rest]
      exact Leads.reach (a := 2) (.ff (by simpa [SSt.headSnap] using fun h => he h.symm) (.step rfl .refl)) pop_loop
  | @cData l H y x nx h1 h2 h3 h4 h0 =>
    cases hk
    subst h1 h4
    simp only [copyPayload, h3] at hr
    have go : ∀ v : α, Goal 60 { l with next_ptr := some y, ret := some v } (.stm (takeFirst.drop 2) :: popRest)
        (.cCas l.head (R.K.ptr l.next.v) v) := by
      intro v
      left
      leads
      exact .cCas rfl h0 rfl h2 rfl rfl
    cases ch <;> simp at hr
    · rcases hd : s.mem.data y with _ | v
      · simp [hd] at hr
        obtain ⟨hv, rfl, rfl, rfl⟩ := hr
        exact ⟨.err, fun _ => trivial, by simp [ststep, hd, hv], rfl⟩
      · simp [hd] at hr
        obtain ⟨rfl, rfl, rfl⟩ := hr
        exact ⟨.cCas l.head (R.K.ptr l.next.v) v, fun _ => trivial, by simp only [ststep, hd], go v⟩
    · obtain ⟨rfl, rfl, rfl⟩ := hr
      exact ⟨_, fun _ => trivial, rfl, .inl (push_throw.mono (by decide))⟩
    · obtain ⟨hv, rfl, rfl, rfl⟩ := hr
      rename_i v
      exact ⟨.cCas l.head (R.K.ptr l.next.v) v, fun _ => trivial, by simp only [ststep, if_neg hv], go v⟩
  | @cCas l H x nx v y h0 h0' h1 h2 h3 h4 =>
    cases hk
    subst h1
    have hfr := fun hok => show s.headVer < l.head.ver + R.M from of_decide_eq_true hok
    simp only [casHead, h3] at hr
    have again : ∀ l' : Loc R.K α, l'.cas = false → Goal 60 l' (.stm (takeFirst.drop 4) :: popRest) .cHead :=
      fun l' h => .inl (Leads.reach (a := 2) (.ff h (.step rfl .refl)) pop_loop)
    cases ch <;> simp at hr
    · by_cases he : s.head = l.head.v
      · simp [he] at hr
        obtain ⟨rfl, rfl, rfl⟩ := hr
        refine ⟨.cDestroy x v, hfr, by simp [ststep, he, h2], .inl ?_⟩
        simp only [Flow.rest]
        leads
        exact .cDestroy h2 h4
      · simp [he] at hr
        obtain ⟨rfl, rfl, rfl⟩ := hr
        exact ⟨.cHead, hfr, by simp only [ststep, he, if_false], again _ rfl⟩
    · obtain ⟨rfl, rfl, rfl⟩ := hr
      exact ⟨_, hfr, rfl, again _ rfl⟩
  | @cDestroy l n v h1 h2 =>
    cases hk
    simp only [dtor, h1] at hr
    cases ch <;> simp at hr
    obtain ⟨rfl, rfl, rfl⟩ := hr
    refine ⟨_, fun _ => trivial, rfl, .inl ?_⟩
    simp only [Flow.rest]
    leads
    exact .free (.pop h2) (.load h1)
  | @free l c n d ctx K hc hd =>
    subst hk
    obtain ⟨m, r, h1, rfl, h4, h5, rfl, h6⟩ := dealloc_access hd hr
    cases r with
    | some d' =>
      obtain ⟨i, l₁, k₁, hi, h8, h9, h10⟩ := h6
      refine ⟨.free c n d', fun _ => trivial, by simp only [ststep]; erw [h1]; rfl,
        .inl (Leads.reach h9 (Leads.here (n := 0) (.free ((hc.same h4).same h8) h10)) (by omega))⟩
    | none =>
      refine ⟨sonFreed c, fun _ => trivial, by simp only [ststep]; erw [h1]; rfl, Goal.reach h6 (free_end (hc.same h4))⟩
  | @eHead l =>
    cases hk
    simp only [evalFirst] at hr
    cases ch <;> simp at hr
    · obtain ⟨rfl, rfl, rfl⟩ := hr
      refine ⟨_, fun _ => trivial, rfl, .inl ?_⟩
      simp only [Flow.rest]
      leads
      exact .eTail rfl
    · obtain ⟨rfl, rfl, rfl⟩ := hr
      refine ⟨_, fun _ => trivial, rfl, .inl ?_⟩
      simp only [Flow.rest]
      leads
      exact .eHead2 rfl
  | @eTail l H h1 =>
    cases hk
    simp only [loadTail] at hr
    cases ch <;> simp at hr
    obtain ⟨rfl, rfl, rfl⟩ := hr
    refine ⟨_, fun _ => trivial, rfl, .inl ?_⟩
    simp only [Flow.rest]
    leads
    exact .fin (by simp [h1, SSt.tailSnap]; rfl)
  | @eHead2 l T h1 =>
    cases hk
    simp only [loadHead] at hr
    cases ch <;> simp at hr
    obtain ⟨rfl, rfl, rfl⟩ := hr
    refine ⟨_, fun _ => trivial, rfl, .inl ?_⟩
    simp only [Flow.rest]
    leads
    exact .fin (by simp [h1, SSt.headSnap]; rfl)
  | @rsv l k h1 =>
    cases hk
    simp only [Port.osAllocate, Port.acc, port] at hr
    cases ch <;> simp at hr
    · by_cases hl : s.mem.nalloc < R.limit <;> simp [hl] at hr
      obtain ⟨rfl, rfl, rfl⟩ := hr
      refine ⟨.free (.rsv k) s.mem.nalloc .load, fun _ => trivial, by simp [ststep, hl], .inl ?_⟩
      simp only [Flow.rest]
      leads
      exact .free (.rsv h1) (.load rfl)
    · obtain ⟨rfl, rfl, rfl⟩ := hr
      refine ⟨.ret .threw, fun _ => trivial, rfl, .inl ?_⟩
      simp only [Flow.rest]
      leads
      exact .fin rfl
  | fin => simp at hk

/-- The beginning of a call. -/
theorem call_goal (t : Nat) (o : Op α) (l : Loc R.K α) (a : LStm R α) (hb : (program R α).body t o = some (l, a)) :
    ∃ p, sstart R o = some p ∧ Goal 60 l [.stm a] p := by
  cases o with
  | push b v =>
    simp [program] at hb
    obtain ⟨rfl, rfl⟩ := hb
    refine ⟨_, rfl, .inl ?_⟩
    leads
    exact .alloc rfl .load
  | pop =>
    simp [program] at hb
    obtain ⟨rfl, rfl⟩ := hb
    refine ⟨_, rfl, .inl ?_⟩
    leads
    exact .cHead
  | empty =>
    simp [program] at hb
    obtain ⟨rfl, rfl⟩ := hb
    refine ⟨_, rfl, .inl ?_⟩
    leads
    exact .eHead
  | reserve k =>
    by_cases hfx : R.fixed = true <;> simp [program, hfx] at hb
    obtain ⟨rfl, rfl⟩ := hb
    refine ⟨.rsv k, by simp [sstart, hfx], ?_⟩
    refine Goal.reach (a := 6) (l' := { Loc.init R.zero with count := k }) ?_ (reserve_loop (by simp [Loc.init]))
    exact .step rfl (.step rfl (.step rfl (.step rfl (.step rfl (.step rfl .refl)))))

theorem call_start (t : Nat) (s : SSt R.K α) (o : Op α) (l : Loc R.K α) (a : LStm R α) (hb : (program R α).body t o = some (l, a)) :
    ∃ ch p, isSpur ch = false ∧ sokFresh R s .idle ch ∧ ststep R t s .idle ch = some (s, p, some (.inv t o)) ∧
      Soon (smach α R) (sokFresh R) isSpur (Leads 60 At l [.stm a]) p := by
  obtain ⟨p, hp, hg⟩ := call_goal t o l a hb
  exact ⟨.call o, p, rfl, trivial, by simp [ststep, hp], hg.soon⟩

/-- The text refines the machine on words. -/
theorem refines : Refines (program R α) (smach α R) (fun _ _ => True) (sokFresh R) isSpur .err (fun _ => TextInv R) At 60 where
  call t s o l a hb _ := call_start t s o l a hb
  head _ _ _ h := h.head
  access t s l a k p ch s' l' f _ hat hok hr := by
    obtain ⟨p', h1, h2, h3⟩ := access t s l a k p ch s' l' f hat hr
    refine ⟨p', h1 hok, h2, ?_⟩
    cases f
    · exact Goal.soon h3
    · exact Goal.soon h3
    · exact h3
  fin l p h := by
    generalize hk : ([] : LRest R α) = K at h
    cases h with
    | fin hr => rw [← hr]; rfl
    | alloc _ h => exact (h.ne hk.symm).elim
    | free _ h => exact (h.ne hk.symm).elim
    | _ => simp at hk
  res t s r := ⟨.go, rfl, trivial, rfl⟩
  env t s p ch s' h := by simp [program] at h

end Verif.Queue.Code
