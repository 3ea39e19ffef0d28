import Verif.TextLife
import Verif.Queue.TextUnsyncProps
import Verif.Queue.Reported

/-!
# Constructor and destructor of `include/boost/lockfree/queue.hpp` as structured programs (C59)
-/

namespace Verif.Queue.Code
open Lin Text

variable {α : Type} {R : Rep}

/-! ### The destructor -/

/-- `while ( unsynchronized_pop( dummy ) ) {}` (queue.hpp:290). -/
def drainLoop : LStm R α :=
  .fn unsynchronizedPop ;;
  .ite (fun l => l.result matches .popped none) .brk .skip

/-- The body of `~queue` (queue.hpp:287-293), after the declaration of `dummy`. -/
def dtorBody : LStm R α :=
  .forever drainLoop ;;
  .acc (loadHead fun l x => { l with head := x }) ;;
  destructU

/-- The body of `~queue`, as a program; the result is what `dummy` contains in the end. -/
def dtorProgram (R : Rep) (α : Type) : Program (SSt R.K α) (Loc R.K α) (SChoice R.K (Op α) α) Unit (Option α) where
  body _ _ := some (Loc.init R.zero, dtorBody)
  result l := l.ret

/-- Assigning to `dummy` does not throw: elements of a queue have a trivial assignment (queue.hpp:95-97). -/
def noThrow (ch : SChoice R.K (Op α) α) : Prop := ch ≠ .throw

variable {t n m f j : Nat} {Q : SSt R.K α → Loc R.K α → LRest R α → Prop} {s : SSt R.K α} {l : Loc R.K α} {k : LRest R α}

/-- Every execution of `k` ends where `Q` holds. -/
abbrev QEnds (t : Nat) (Q : SSt R.K α → Loc R.K α → LRest R α → Prop) (n f : Nat) (s : SSt R.K α) (l : Loc R.K α) (k : LRest R α) : Prop :=
  Ends t noThrow isSpur Q n f s l k

theorem QEnds.go {a : LAcc R α} {s' l'} (h : QEnds t Q n f s' l' k) (hr : a.run t s l .go = some (s', l', .next) := by rfl)
    (hok : a.ok s l .go = true := by rfl)
    (ho : ∀ ch, noThrow ch → ch ≠ .go → a.run t s l ch = none := by intro ch _ h; cases ch <;> first | rfl | exact absurd rfl h) :
    QEnds t Q (n + 1) f s l (.stm (.acc a) :: k) := by
  have key : ∀ ch y, noThrow ch → a.run t s l ch = some y → ch = .go ∧ y = (s', l', .next) := by
    intro ch y h0 hy
    have h1 : ch = .go := by
      refine Classical.byContradiction fun hn => ?_
      rw [ho _ h0 hn] at hy; cases hy
    subst h1
    rw [hr] at hy
    exact ⟨rfl, (Option.some.inj hy).symm⟩
  refine .acc ⟨.go, _, by simp [noThrow], rfl, hok, hr⟩ (fun ch s₁ l₁ h0 _ h1 => ?_) (fun ch s₁ l₁ w h0 _ _ h1 => ?_) (fun ch s₁ l₁ w g h0 _ h2 _ h1 => ?_)
  · have := (key _ _ h0 h1).2; cases this
  · have := (key _ _ h0 h1).2; cases this; exact h
  · rw [(key _ _ h0 h1).1] at h2; cases h2

theorem deallocateU_ends {c} (hn : l.fl.n = some c)
    (h : ∀ fl', QEnds t Q m f { s with mem := s.mem.deallocUnsafe R c } { l with fl := fl' } k) :
    QEnds t Q (m + 20) f s l (.stm (.fn (port R α).deallocateU) :: k) := by
  ctls
  refine QEnds.go ?_
  ctls
  refine QEnds.go (s' := { s with mem := s.mem.setLink c (R.K.ptr s.mem.pool) })
    (l' := { l with fl := { l.fl with old_pool := s.mem.poolSnap, new_pool := R.K.pack (R.K.hnd (some c)) (R.K.tag s.mem.pool) } }) ?_ ?_ ?_ ?_
  · refine QEnds.go ?_
    ctls
    exact (h _).mono (by omega)
  · simp [Port.setLink, Port.acc, port, hn, SMem.poolSnap]
  · rfl
  · intro ch _ h
    cases ch <;> first | exact absurd rfl h | simp [Port.setLink, Port.acc, port, hn]

theorem destructU_ends {c} (hn : R.K.node (R.K.ptr l.head.v) = some c)
    (h : ∀ fl', QEnds t Q m f { s with mem := (s.mem.setData c none).deallocUnsafe R c } { l with fl := fl' } k) :
    QEnds t Q (m + 30) f s l (.stm destructU :: k) := by
  refine .step rfl (.step rfl (.step rfl (.step rfl ?_)))
  refine Ends.mono (n := (m + 2 + 20) + 1) ?_ (by omega)
  refine QEnds.go (s' := { s with mem := s.mem.setData c none }) (l' := { l with fl := { l.fl with n := some c } }) ?_ (by simp [dtor, hn]) rfl ?_
  · refine deallocateU_ends (c := c) rfl fun fl' => ?_
    exact .step rfl ((h fl').mono (by omega))
  · intro ch _ h
    cases ch <;> first | exact absurd rfl h | simp [dtor, hn]

/-- A queue no thread is using: `F` are the nodes in the freelist, `d` is the dummy node, `S` are the nodes after it, `σ` the elements in them. -/
structure AtRest (R : Rep) (s : SSt R.K α) (F : List Nat) (d : Nat) (S : List Nat) (σ : List α) : Prop where
  pool : Chained R s.mem (R.K.ptr s.mem.pool) F
  head : Chained R s.mem (R.K.ptr s.head) (d :: S)
  tail : ∃ x ∈ d :: S, R.K.ptr s.tail = R.K.hnd (some x)
  nodup : (F ++ d :: S).Nodup
  alloc : ∀ c ∈ F ++ d :: S, c < s.mem.nalloc
  data : S.map s.mem.data = σ.map some
  free : ∀ c ∈ F, s.mem.data c = none

theorem AtRest.hd {F d S} {σ : List α} (h : AtRest R s F d S σ) : R.K.ptr s.head = R.K.hnd (some d) ∧ d < R.limit ∧ Chained R s.mem (R.K.ptr (s.mem.next d)) S := by
  cases h.head with
  | cons h1 h2 h3 => exact ⟨h1, h2, h3⟩

theorem AtRest.lt {F d S} {σ : List α} (h : AtRest R s F d S σ) : ∀ c ∈ d :: S, c < R.limit := by
  have : ∀ {p L}, Chained R s.mem p L → ∀ c ∈ L, c < R.limit := by
    intro p L hc
    induction hc with
    | nil => simp
    | cons _ h1 _ ih => intro c hc; rcases List.mem_cons.1 hc with rfl | hc
                        · exact h1
                        · exact ih c hc
  exact this h.head

/-- Handles of nodes are different. -/
theorem hnd_inj (hf : R.Faithful) {a b : Nat} (ha : a < R.limit) (hb : b < R.limit) (h : R.K.hnd (some a) = R.K.hnd (some b)) : a = b := by
  have h1 := hf.words.node_hnd (some a) (by rintro _ ⟨⟩; exact ha)
  have h2 := hf.words.node_hnd (some b) (by rintro _ ⟨⟩; exact hb)
  rw [h, h2] at h1
  exact (Option.some.inj h1).symm

theorem node_of {x : Nat} (hf : R.Faithful) (hx : x < R.limit) {p : R.K.H} (hp : p = R.K.hnd (some x)) : R.K.node p = some x := by
  rw [hp]; exact hf.words.node_hnd _ (by rintro _ ⟨⟩; exact hx)

/-- The beginning of the loop of `unsynchronized_pop`. -/
theorem popLoopU_start {i d} (hd : R.K.node (R.K.ptr s.head) = some d)
    (h : ∀ l', l'.head = s.headSnap → l'.tail = s.tailSnap → l'.next = s.nextSnap d → l'.next_ptr = R.K.node (R.K.ptr (s.mem.next d)) → l'.ret = l.ret →
      QEnds t Q m f s l' (.stm (.ite (fun l => R.K.ptr l.head.v == R.K.ptr l.tail.v) helpTailU takeFirstU) :: .loop i :: .fn :: k)) :
    QEnds t Q (m + 20) f s l (.stm popLoopU :: .loop i :: .fn :: k) := by
  have hd' : R.K.node (R.K.ptr s.headSnap.v) = some d := hd
  refine .step rfl ?_
  refine QEnds.go ?_
  refine .step rfl (.step rfl (.step rfl ?_))
  refine QEnds.go ?_
  refine .step rfl ?_
  refine QEnds.go (s' := s) (l' := { l with head := s.headSnap, head_ptr := R.K.node (R.K.ptr s.headSnap.v), tail := s.tailSnap, next := s.nextSnap d }) ?_
    (by simp [loadNext, hd']) rfl ?_
  · refine .step rfl (.step rfl (Ends.mono (n := m) ?_ (by omega)))
    refine h _ ?_ ?_ ?_ ?_ ?_ <;> rfl
  · intro ch _ h
    cases ch <;> first | exact absurd rfl h | simp [loadNext, hd']

/-- `unsynchronized_pop` of an empty queue. -/
theorem popU_nil (hf : R.Faithful) {F d} (ha : AtRest (α := α) R s F d [] [])
    (h : ∀ l', l'.result = .popped none → l'.ret = l.ret → QEnds t Q m f s l' k) :
    QEnds t Q (m + 40) f s l (.stm (.fn unsynchronizedPop) :: k) := by
  obtain ⟨h1, h2, h3⟩ := ha.hd
  refine .step rfl (.step rfl (Ends.mono (n := (m + 10) + 20) ?_ (by omega)))
  refine popLoopU_start (node_of hf h2 h1) fun l' h4 h5 h6 h7 h8 => ?_
  have h9 : l'.next_ptr = none := by
    rw [h7]
    cases h3 with
    | nil h => rw [h]; exact hf.words.node_hnd _ (by simp)
  obtain ⟨x, hx, hx'⟩ := ha.tail
  refine .tt ?_ (.step rfl (.tt (by simp [h9]) (.step rfl (.step rfl (.step rfl (Ends.mono (n := m) ?_ (by omega)))))))
  · rw [h4, h5]
    have : x = d := by simpa using hx
    simp [SSt.headSnap, SSt.tailSnap, h1, hx', this]
  · refine h _ ?_ ?_
    · rfl
    · exact h8

/-- The state after `unsynchronized_pop` has taken the element after the dummy node `d`. -/
def SSt.popped (R : Rep) (s : SSt R.K α) (d : Nat) : SSt R.K α :=
  { s with mem := (s.mem.setData d none).deallocUnsafe R d, head := R.K.pack (R.K.ptr (s.mem.next d)) (R.K.next (R.K.tag s.head)), headVer := s.headVer + 1 }

/-- The state after `unsynchronized_pop` has moved `tail_` to the node after the dummy node `d`. -/
def SSt.helped (R : Rep) (s : SSt R.K α) (d : Nat) : SSt R.K α :=
  { s with tail := R.K.pack (R.K.ptr (s.mem.next d)) (R.K.next (R.K.tag s.tail)), tailVer := s.tailVer + 1 }

/-- The end of `unsynchronized_pop`. -/
theorem takeFirstU_ends {i d y v} (hd : R.K.node (R.K.ptr s.head) = some d) (hy : R.K.node (R.K.ptr (s.mem.next d)) = some y) (hv : s.mem.data y = some v)
    (h4 : l.head = s.headSnap) (h6 : l.next = s.nextSnap d) (h7 : l.next_ptr = R.K.node (R.K.ptr (s.mem.next d)))
    (h : ∀ l', l'.result = .popped (some v) → l'.ret = some v → QEnds t Q m f (SSt.popped R s d) l' k) :
    QEnds t Q (m + 60) f s l (.stm takeFirstU :: .loop i :: .fn :: k) := by
  have h8 : l.next_ptr = some y := h7.trans hy
  have h9 : l.head.ver = s.headVer := by rw [h4]; rfl
  refine .step rfl (.ff (by simp [h8]) (.step rfl (.step rfl ?_)))
  refine Ends.mono (n := (m + 10 + 30 + 4) + 1) ?_ (by omega)
  refine QEnds.go (s' := s) (l' := { l with ret := some v }) ?_ (by simp [copyPayload, h8, hv]) rfl ?_
  · refine .step rfl (.step rfl (.step rfl ?_))
    refine QEnds.go ?_
    refine .step rfl ?_
    refine Ends.mono (n := m + 9 + 30) ?_ (by omega)
    refine destructU_ends (c := d) ?_ fun fl' => ?_
    · show R.K.node (R.K.ptr l.head.v) = some d
      rw [h4]; exact hd
    · refine .step rfl (.step rfl (.step rfl (Ends.mono (n := m) ?_ (by omega))))
      have h10 := h { l with ret := some v, new_head := R.K.pack (R.K.ptr l.next.v) (R.K.next (R.K.tag l.head.v)), fl := fl', result := .popped (some v) } rfl rfl
      have h11 : SSt.popped R s d =
          (⟨(s.mem.setData d none).deallocUnsafe R d, R.K.pack (R.K.ptr l.next.v) (R.K.next (R.K.tag l.head.v)), s.headVer + 1, s.tail, s.tailVer⟩ : SSt R.K α) := by
        rw [h4, h6]; rfl
      rw [h11] at h10
      exact h10
  · intro ch h0 h
    cases ch <;> first | exact absurd rfl h | exact absurd rfl h0 | simp [copyPayload, h8, h9]

theorem AtRest.next {F d y S v} {σ : List α} (ha : AtRest R s F d (y :: S) (v :: σ)) :
    R.K.ptr (s.mem.next d) = R.K.hnd (some y) ∧ y < R.limit ∧ s.mem.data y = some v := by
  obtain ⟨-, -, h3⟩ := ha.hd
  have := ha.data
  simp only [List.map_cons, List.cons.injEq] at this
  cases h3 with
  | cons h1 h2 _ => exact ⟨h1, h2, this.1⟩

theorem AtRest.helped (hf : R.Faithful) {F d y S v} {σ : List α} (ha : AtRest R s F d (y :: S) (v :: σ)) : AtRest R (SSt.helped R s d) F d (y :: S) (v :: σ) := by
  obtain ⟨h1, h2, -⟩ := ha.next
  refine ⟨ha.pool, ha.head, ⟨y, by simp, ?_⟩, ha.nodup, ha.alloc, ha.data, ha.free⟩
  simp only [SSt.helped, h1]
  exact hf.words.ptr_pack _ _ (by rintro _ ⟨⟩; exact h2)

theorem AtRest.popped (hf : R.Faithful) {F d y S v x} {σ : List α} (ha : AtRest R s F d (y :: S) (v :: σ)) (hx : x ∈ d :: y :: S)
    (hx' : R.K.ptr s.tail = R.K.hnd (some x)) (hne : x ≠ d) : AtRest R (SSt.popped R s d) (d :: F) y S σ := by
  have hn := ha.nodup
  have hnF : d ∉ F := by
    intro h1
    exact (List.nodup_append.1 hn).2.2 d h1 d (by simp) rfl
  have hnS : d ∉ y :: S := ((List.nodup_append.1 hn).2.1.notMem)
  have hp : ((d :: F) ++ y :: S).Perm (F ++ d :: y :: S) := List.perm_middle.symm
  obtain ⟨h1, h2, h3⟩ := ha.hd
  obtain ⟨h4, h5, -⟩ := ha.next
  have hpool : Chained R (s.mem.setData d none) (R.K.ptr (s.mem.setData d none).pool) F := ha.pool.congr fun _ _ => rfl
  refine ⟨hpool.dealloc hf h2 hnF, ?_, ⟨x, ?_, hx'⟩, hp.nodup_iff.2 hn, fun c hc => ha.alloc c (hp.mem_iff.1 hc), ?_, ?_⟩
  · have h6 : R.K.ptr (SSt.popped R s d).head = R.K.ptr (s.mem.next d) := by
      simp only [SSt.popped, h4]
      exact hf.words.ptr_pack _ _ (by rintro _ ⟨⟩; exact h5)
    rw [h6]
    refine h3.congr fun c hc => ?_
    have : c ≠ d := by rintro rfl; exact hnS hc
    simp [SSt.popped, SMem.deallocUnsafe, SMem.setLink, SMem.setData, upd_ne _ _ _ this]
  · simpa [hne] using hx
  · have h5 := ha.data
    simp only [List.map_cons, List.cons.injEq] at h5
    rw [← h5.2]
    refine List.map_congr_left fun c hc => ?_
    have : c ≠ d := by rintro rfl; exact hnS (by simp [hc])
    simp [SSt.popped, SMem.deallocUnsafe, SMem.setLink, SMem.setData, upd_ne _ _ _ this]
  · intro c hc
    by_cases hcd : c = d
    · subst hcd; simp [SSt.popped, SMem.deallocUnsafe, SMem.setLink, SMem.setData]
    · have : c ∈ F := by simpa [hcd] using hc
      simpa [SSt.popped, SMem.deallocUnsafe, SMem.setLink, SMem.setData, upd_ne _ _ _ hcd] using ha.free c this

/-- `unsynchronized_pop` of a queue that is not empty, `tail_` not pointing to the dummy node. -/
theorem popLoopU_take (hf : R.Faithful) {F d y S v x} {σ : List α} (ha : AtRest R s F d (y :: S) (v :: σ)) (hx : x ∈ d :: y :: S)
    (hx' : R.K.ptr s.tail = R.K.hnd (some x)) (hne : x ≠ d) {i}
    (h : ∀ l', l'.result = .popped (some v) → l'.ret = some v → QEnds t Q m f (SSt.popped R s d) l' k) :
    QEnds t Q (m + 90) f s l (.stm popLoopU :: .loop i :: .fn :: k) := by
  obtain ⟨h1, h2, -⟩ := ha.hd
  obtain ⟨h3, h4, h5⟩ := ha.next
  refine Ends.mono (n := (m + 60 + 1) + 20) ?_ (by omega)
  refine popLoopU_start (node_of hf h2 h1) fun l' h6 h7 h8 h9 h10 => ?_
  refine .ff ?_ (takeFirstU_ends (node_of hf h2 h1) (node_of hf h4 h3) h5 h6 h8 h9 h)
  rw [h6, h7]
  have : R.K.ptr s.head ≠ R.K.ptr s.tail := by
    rw [h1, hx']
    intro h
    exact hne (hnd_inj hf h2 (ha.lt x hx) h).symm
  simpa [SSt.headSnap, SSt.tailSnap] using this

/-- `unsynchronized_pop` of a queue that is not empty. -/
theorem popU_cons (hf : R.Faithful) {F d y S v} {σ : List α} (ha : AtRest R s F d (y :: S) (v :: σ))
    (h : ∀ s' l', AtRest R s' (d :: F) y S σ → s'.mem = (s.mem.setData d none).deallocUnsafe R d → l'.result = .popped (some v) → l'.ret = some v →
      QEnds t Q m f s' l' k) :
    QEnds t Q (m + 130) f s l (.stm (.fn unsynchronizedPop) :: k) := by
  obtain ⟨x, hx, hx'⟩ := ha.tail
  obtain ⟨h1, h2, -⟩ := ha.hd
  obtain ⟨h3, h4, h5⟩ := ha.next
  refine .step rfl (.step rfl ?_)
  by_cases hne : x = d
  · subst hne
    refine Ends.mono (n := (m + 90 + 10) + 20) ?_ (by omega)
    refine popLoopU_start (node_of hf h2 h1) fun l' h6 h7 h8 h9 h10 => ?_
    have h11 : l'.next_ptr = some y := h9.trans (node_of hf h4 h3)
    refine .tt (by simp [h6, h7, SSt.headSnap, SSt.tailSnap, h1, hx']) (.step rfl (.ff (by simp [h11]) (.step rfl (.step rfl (.step rfl ?_)))))
    refine Ends.mono (n := (m + 90 + 1) + 1) ?_ (by omega)
    refine QEnds.go (s' := SSt.helped R s x) (l' := { l' with new_tail := R.K.pack (R.K.ptr l'.next.v) (R.K.next (R.K.tag l'.tail.v)) }) ?_ ?_ rfl ?_
    · refine .step rfl ?_
      have ha' := ha.helped hf
      have h12 : R.K.ptr (SSt.helped R s x).tail = R.K.hnd (some y) := by
        simp only [SSt.helped, h3]
        exact hf.words.ptr_pack _ _ (by rintro _ ⟨⟩; exact h4)
      have hyx : y ≠ x := by
        rintro rfl
        have := (List.nodup_append.1 ha.nodup).2.1
        simp at this
      refine popLoopU_take hf ha' (x := y) (by simp) h12 hyx fun l'' h13 h14 => ?_
      exact h _ l'' (ha'.popped hf (by simp) h12 hyx) rfl h13 h14
    · simp [storeTail, SSt.helped, h7, h8, SSt.tailSnap, SSt.nextSnap]
    · intro ch _ h
      cases ch <;> first | exact absurd rfl h | rfl
  · refine Ends.mono (n := m + 90) ?_ (by omega)
    exact popLoopU_take hf ha hx hx' hne fun l'' h13 h14 => h _ l'' (ha.popped hf hx hx' hne) rfl h13 h14

/-- The loop of `~queue`. -/
theorem drainLoop_ends (hf : R.Faithful) {F d S} {σ : List α} (ha : AtRest R s F d S σ)
    (hdone : ∀ s' l' F' d', AtRest R s' F' d' [] [] → (F' ++ [d']).Perm (F ++ d :: S) → s'.mem.nalloc = s.mem.nalloc →
      (∀ c, c ∉ d :: S → s'.mem.data c = s.mem.data c) → l'.ret = σ.getLast?.or l.ret → QEnds t Q m f s' l' k) :
    QEnds t Q (m + 140 * σ.length + 50) f s l (.stm drainLoop :: .loop drainLoop :: k) := by
  induction S generalizing s l F d σ with
  | nil =>
    have h1 : σ = [] := by simpa using ha.data.symm
    subst h1
    refine .step rfl (Ends.mono (n := (m + 9) + 40) ?_ (by simp))
    refine popU_nil hf ha fun l' h1 h2 => ?_
    refine .tt (by simp [h1]) (.step rfl (Ends.mono (n := m) ?_ (by omega)))
    exact hdone s l' F d ha (.refl _) rfl (fun _ _ => rfl) (by simpa using h2)
  | cons y S ih =>
    cases σ with
    | nil => have := ha.data; simp at this
    | cons v σ =>
      refine .step rfl (Ends.mono (n := (m + 140 * σ.length + 50 + 3) + 130) ?_ (by simp only [List.length_cons]; omega))
      refine popU_cons hf ha fun s' l' h1 h2 h3 h4 => ?_
      refine .ff (by simp [h3]) (.step rfl (.step rfl ?_))
      refine ih h1 ?_
      intro s'' l'' F' d' h5 h6 h7 h8 h9
      refine hdone s'' l'' F' d' h5 (h6.trans (by simpa using List.perm_middle.symm)) (by rw [h7, h2]; rfl) ?_ ?_
      · intro c hc
        have hcd : c ≠ d := by rintro rfl; simp at hc
        rw [h8 c (fun h => hc (by simp [h])), h2]
        simp [SMem.deallocUnsafe, SMem.setLink, SMem.setData, upd_ne _ _ _ hcd]
      · rw [h9, show (id l').ret = some v from h4]
        cases σ with
        | nil => simp
        | cons w σ =>
          obtain ⟨z, hz⟩ : ∃ z, (w :: σ).getLast? = some z := ⟨_, List.getLast?_eq_some_getLast (by simp)⟩
          rw [List.getLast?_cons_cons, hz]; rfl

/-- **C59 (queue: body of the destructor).** -/
theorem dtor_body_total (hf : R.Faithful) {F d S} {σ : List α} (ha : AtRest R s F d S σ) (t : Nat) :
    Total (dtorProgram R α) noThrow isSpur t s () (fun _ => 140 * σ.length + 91) fun s' r =>
      r = σ.getLast? ∧ s'.mem.nalloc = s.mem.nalloc ∧ (∀ c, c ∉ d :: S → s'.mem.data c = s.mem.data c) ∧
      ∃ F', Chained R s'.mem (R.K.ptr s'.mem.pool) F' ∧ F'.Perm (F ++ d :: S) ∧ ∀ c ∈ F', s'.mem.data c = none := by
  refine Total.of_ends (N := fun _ => 140 * σ.length + 90) (fun _ _ _ => rfl) rfl fun f => ?_
  refine .step rfl (.step rfl ?_)
  refine Ends.mono (n := 35 + 140 * σ.length + 50) ?_ (by omega)
  refine drainLoop_ends hf ha ?_
  intro s' l' F' d' h1 h2 h3 h4 h5
  refine .step rfl ?_
  obtain ⟨h6, h7, -⟩ := h1.hd
  refine Ends.mono (n := (0 + 30) + 1) ?_ (by omega)
  refine QEnds.go ?_
  refine destructU_ends (c := d') ?_ fun fl' => ?_
  · exact node_of hf h7 h6
  have hnF : d' ∉ F' := by
    intro h
    exact (List.nodup_append.1 h1.nodup).2.2 d' h d' (by simp) rfl
  have hd' : d' ∈ F ++ d :: S := h2.mem_iff.1 (by simp)
  have hpool : Chained R (s'.mem.setData d' none) (R.K.ptr (s'.mem.setData d' none).pool) F' := h1.pool.congr fun _ _ => rfl
  refine .here ⟨rfl, ?_, h3, ?_, d' :: F', hpool.dealloc hf h7 hnF, ?_, ?_⟩
  · simp only [dtorProgram, h5]
    simp [Loc.init]
  · intro c hc
    by_cases hcd : c = d'
    · subst hcd
      have hcF : c ∈ F := by
        rcases List.mem_append.1 hd' with h | h
        · exact h
        · exact absurd h hc
      simp [SMem.deallocUnsafe, SMem.setLink, SMem.setData, ha.free c hcF]
    · simp [SMem.deallocUnsafe, SMem.setLink, SMem.setData, upd_ne _ _ _ hcd, h4 c hc]
  · exact (List.perm_append_singleton d' F').symm.trans h2
  · intro c hc
    by_cases hcd : c = d'
    · subst hcd; simp [SMem.deallocUnsafe, SMem.setLink, SMem.setData]
    · have : c ∈ F' := by simpa [hcd] using hc
      simpa [SMem.deallocUnsafe, SMem.setLink, SMem.setData, upd_ne _ _ _ hcd] using h1.free c this

/-- What executions lead to, when no call is in progress. -/
theorem MixedText.atRest (hf : R.Faithful) {h : History (Op α) (Ret α)} {C} (hn : n + 1 ≤ R.limit) (hx : MixedText R n h C) (hq : ∀ t, C.pc t = .idle) :
    ∃ F d S σ, AtRest R C.s F d S σ ∧
      ((∀ t, .res t .threw ∉ h) → (F ++ d :: S).Perm (List.range C.s.mem.nalloc) ∧ ∀ m, m ∉ d :: S → C.s.mem.data m = none) := by
  obtain ⟨D, h1, h2, h3⟩ := queue_mixed_refines hf hn hx
  obtain ⟨A, h4, hr⟩ := queue_words_simulated hf hn h1
  have hq' : ∀ t, A.pc t = .idle := by
    intro t
    obtain ⟨_, h5⟩ := h3 t
    rw [hq t] at h5
    have h6 := hr.pc t
    rw [show D.pc t = .idle from h5] at h6
    generalize A.pc t = p at h6
    cases h6
    rfl
  obtain ⟨E, h5⟩ := h4.execD
  obtain ⟨g, c, hi, -, hE⟩ := h5.inv
  have hst := hr.st
  rw [h2] at hst
  have hno : ∀ m t, g.own m ≠ .thr t := by
    intro m t; rw [Ne, ← hi.heldBy]; simp [hq' t, HeldBy]
  have hnd : (g.F ++ g.L).Nodup := by
    refine List.nodup_append.2 ⟨hi.si.heap.fnodup, hi.si.nodup, fun a ha b hb => ?_⟩
    rintro rfl
    rw [← hi.si.heap.fmem] at ha
    rw [← hi.si.mem, ha] at hb
    cases hb
  have hin : ∀ m, m ∈ g.F ++ g.L → m < A.s.heap.nalloc := by
    intro m hm
    have h6 := hi.si.heap.raw m
    rw [List.mem_append, ← hi.si.heap.fmem, ← hi.si.mem] at hm
    rw [← Nat.not_le, ← h6]
    rcases hm with h7 | h7 <;> simp [h7]
  obtain ⟨A', x, hx1, hx2⟩ := hi.si.tl
  have hxL : x ∈ g.L := hi.si.tail_mem hx1
  obtain ⟨d, S, hL⟩ : ∃ d S, g.L = d :: S := by
    cases hg : g.L with
    | nil => rw [hg] at hxL; simp at hxL
    | cons d S => exact ⟨d, S, rfl⟩
  have hdat := hi.si.data
  have hch := hi.si.chain
  have hmem := hi.si.mem
  rw [hL] at hnd hin hxL hdat hch hmem
  refine ⟨g.F, d, S, c.st, ⟨?_, ?_, ⟨x, hxL, ?_⟩, hnd, ?_, ?_, ?_⟩, fun hT => ?_⟩
  · rw [hst.mem.pool, hf.ptr (hst.mem.okPool.mono hst.mem.limit)]
    exact .of_rel hf hst.mem hi.si.heap.chain hst.mem.okPool.1
  · rw [hst.head, hf.ptr (hst.okHead.mono hst.mem.limit)]
    exact .of_rel hf hst.mem hch hst.okHead.1
  · rw [hst.tail, hf.ptr (hst.okTail.mono hst.mem.limit), hx1]
  · intro m hm; rw [hst.mem.nalloc]; exact hin m hm
  · rw [hst.mem.data]; exact hdat
  · intro m hm; rw [hst.mem.data]; exact hi.si.heap.fdata m (.inl ((hi.si.heap.fmem m).2 hm))
  · have hall : ∀ m, g.own m = .raw ∨ g.own m = .free ∨ g.own m = .str := by
      intro m
      cases hm : g.own m with
      | thr t => exact absurd hm (hno m t)
      | lost => exact absurd ((hE m).1 hm) (dropped_reported h5 hq' hT m)
      | _ => simp
    refine ⟨(List.perm_ext_iff_of_nodup hnd List.nodup_range).2 fun m => ⟨fun hm => ?_, fun hm => ?_⟩, fun m hm => ?_⟩
    · rw [List.mem_range, hst.mem.nalloc]; exact hin m hm
    · rw [List.mem_range, hst.mem.nalloc, ← Nat.not_le, ← hi.si.heap.raw] at hm
      rw [List.mem_append, ← hi.si.heap.fmem, ← hmem]
      rcases hall m with h6 | h6
      · exact absurd h6 hm
      · exact h6
    · rw [hst.mem.data]
      rw [← hmem] at hm
      refine hi.si.heap.fdata m ?_
      rcases hall m with h6 | h6 | h6
      · exact .inr h6
      · exact .inl h6
      · exact absurd h6 hm

/-- **C59, C20, C29 (queue: destructor as program text).** Take any execution of the program text, after which no call is in progress: `σ` are the elements in the queue, first
one first, `S` the nodes they are in, `d` is the dummy node, `F` are the nodes in the freelist. The body of `~queue`, executed by any thread, returns, without undefined behaviour,
after a number of steps bounded in terms of the number of elements; the last element it has popped is the last one of the queue. The destructor of the member `pool` then returns,
without undefined behaviour, after a bounded number of steps, and has then given back each of the nodes `F`, `d` and `S` exactly once (the array as a whole), and nothing else. If no
exception has been thrown, these are all nodes ever allocated, and no element is left in any node. -/
theorem queue_text_destructor (hf : R.Faithful) {h : History (Op α) (Ret α)} {C} (hn : n + 1 ≤ R.limit) (hx : MixedText R n h C) (hq : ∀ t, C.pc t = .idle)
    (t : Nat) :
    ∃ (F : List Nat) (d : Nat) (S : List Nat) (σ : List α), Linked R C.s.mem (R.K.ptr C.s.mem.pool) F ∧ Linked R C.s.mem (R.K.ptr C.s.head) (d :: S) ∧ S.map C.s.mem.data = σ.map some ∧
      ((∀ t, .res t .threw ∉ h) → (F ++ d :: S).Perm (List.range C.s.mem.nalloc)) ∧
      Total (dtorProgram R α) noThrow isSpur t C.s () (fun _ => 140 * σ.length + 91) fun s r =>
        r = σ.getLast? ∧ (∀ m ∈ F ++ d :: S, s.mem.data m = none) ∧ ((∀ t, .res t .threw ∉ h) → ∀ m, s.mem.data m = none) ∧
        Total (poolDtorProgram R α Unit) (fun _ => True) isSpur t ⟨s.mem, [], ()⟩ () (fun _ => 20 * (F ++ d :: S).length + 21) fun e _ =>
          e.freed.Nodup ∧ e.mem = s.mem ∧ if R.fixed then e.freed.Perm (List.range C.s.mem.nalloc) else e.freed.Perm (F ++ d :: S) := by
  obtain ⟨F, d, S, σ, ha, hT⟩ := hx.atRest hf hn hq
  refine ⟨F, d, S, σ, ha.pool.linked hf, ha.head.linked hf, ha.data, fun h => (hT h).1, ?_⟩
  refine (dtor_body_total hf ha t).mono fun s r ⟨h1, h2, h3, F', h4, hp, h5⟩ => ?_
  have hd : ∀ m ∈ F ++ d :: S, s.mem.data m = none := fun m hm => h5 m (hp.mem_iff.2 hm)
  have hnd : F'.Nodup := hp.nodup_iff.2 ha.nodup
  refine ⟨h1, hd, fun h m => ?_, ?_⟩
  · by_cases hm : m ∈ d :: S
    · exact hd m (List.mem_append.2 (.inr hm))
    · rw [h3 m hm]; exact (hT h).2 m hm
  · rw [← hp.length_eq]
    refine (freelist_destructor_total (s := ⟨s.mem, [], ()⟩) (h4.linked hf) hnd (fun c hc => ?_) rfl t).mono fun e _ ⟨h5, h6, _⟩ => ?_
    · show c < s.mem.nalloc
      rw [h2]; exact ha.alloc c (hp.mem_iff.1 hc)
    simp only [givenBack] at h5
    split at h5
    · rename_i hfx
      rw [h5]
      refine ⟨List.nodup_reverse.2 List.nodup_range, h6, ?_⟩
      rw [if_pos hfx, ← h2]
      exact List.reverse_perm _
    · rename_i hfx
      rw [h5]
      refine ⟨List.nodup_reverse.2 hnd, h6, ?_⟩
      rw [if_neg hfx]
      exact (List.reverse_perm _).trans hp

/-! ### The constructor -/

/-- `tagged_node_handle( 0, 0 )` (queue.hpp:184-185 and likewise): a null pointer with tag 0; the node with index 0 and tag 0. -/
def zeroHandle (R : Rep) : SSnap R.K := ⟨R.K.pack (R.K.hnd (if R.fixed then some 0 else none)) (R.encT 0), 0⟩

/-- `head_( tagged_node_handle( 0, 0 ) ), tail_( tagged_node_handle( 0, 0 ) )` (queue.hpp:184-185 and likewise). -/
def initEnds : LifeAcc R α (SSnap R.K × SSnap R.K) := assign fun s _ => { s with x := (zeroHandle R, zeroHandle R) }

/-- `next( tagged_node_handle( null_handle, 0 ) )` (queue.hpp:126), on a node not used by any thread. -/
def dummyNext : LifeAcc R α (SSnap R.K × SSnap R.K) where
  run _ s l ch :=
    match l.fl.node, ch with
    | none, _ => some (s, l, .ub)
    | some d, .go => some ({ s with mem := { s.mem with next := upd s.mem.next d (R.K.pack (R.K.hnd none) (R.encT 0)), nver := upd s.mem.nver d 0 } }, l, .next)
    | _, _ => none

/-- `T()` (queue.hpp:125-127): the default constructor of the payload, which may throw; what it writes is never read. -/
def dummyData : LifeAcc R α (SSnap R.K × SSnap R.K) where
  run _ s l ch :=
    match l.fl.node, ch with
    | none, _ => some (s, l, .ub)
    | some d, .go => if (s.mem.data d).isSome then some (s, l, .ub) else some (s, l, .next)
    | some _, .throw => some (s, l, .throws)
    | _, _ => none

/-- `pool.template construct< true, false >( pool.null_handle() )` (freelist.hpp:86-93, 450-460). -/
def dummyCtor : LifeStm R α (SSnap R.K × SSnap R.K) :=
  .fn (
    .fn ((lifePort R α _).allocate false) ;;
    .ite (fun l => l.fl.node.isSome)
      (.acc dummyNext ;;
       .acc dummyData)
      .skip)

/-- `initialize()` (queue.hpp:142-148). -/
def initQueue : LifeStm R α (SSnap R.K × SSnap R.K) :=
  dummyCtor ;;
  .set (fun l => { l with n := l.fl.node }) ;;
  .set (fun l => { l with dummy_node := R.K.pack (R.K.hnd l.n) (R.encT 0) }) ;;
  .acc (assign fun s l => { s with x := (⟨l.dummy_node, 0⟩, s.x.2) }) ;;
  .acc (assign fun s l => { s with x := (s.x.1, ⟨l.dummy_node, 0⟩) })

/-- `queue( n )` (queue.hpp:183-269): `head_( … ), tail_( … ), pool( alloc, n + 1 )`, then `initialize()`. If the constructor of `pool` throws, no destructor is called that does
anything; if `initialize` throws, the destructor of `pool` is called. -/
def ctor : LifeStm R α (SSnap R.K × SSnap R.K) :=
  .acc initEnds ;;
  freelistCtor ;;
  .tryCatch (.fn initQueue)
    (freelistDtor ;;
     .rethrow)

/-- The constructor, called with the number of elements; the result tells whether it has returned, not thrown. The members other than `pool` are `head_` and `tail_`.
`n + 1` is computed without wrapping; for `SIZE_MAX` see C33. -/
def ctorProgram (R : Rep) (α : Type) : Program (Life R.K α (SSnap R.K × SSnap R.K)) (LifeVars R.K) (SChoice R.K LifeOp α) Nat Bool where
  body _ n := some ({ LifeVars.init R.zero with count := n + 1 }, lifeCall ctor)
  result l := l.returned

section
variable {X : Type} {al : SChoice R.K LifeOp α → Prop} {Q : Life R.K α X → LifeVars R.K → LifeRest R α X → Prop} {s : Life R.K α X} {l : LifeVars R.K} {k : LifeRest R α X}

/-- A freelist from which node `c` has been taken. -/
def SMem.take (R : Rep) (m : SMem R.K α) (c : Nat) : SMem R.K α :=
  { m with pool := R.K.pack (R.K.ptr (m.next c)) (R.K.next (R.K.tag m.pool)), poolVer := m.poolVer + 1 }

theorem take_ends (hf : R.Faithful) (hg : al .go) {c} (hc : R.K.node (R.K.ptr s.mem.pool) = some c) (ho : l.fl.old_pool = s.mem.poolSnap)
    (h : ∀ g, g ≤ f → ∀ fl', fl'.node = some c → LEnds al t Q (m + 30 * g) g { s with mem := SMem.take R s.mem c } { l with fl := fl' } k) :
    LEnds al t Q (m + 30 * f + 25) f s l (.stm ((lifePort R α X).exhausted false ;; (lifePort R α X).take) ::
      .loop ((lifePort R α X).exhausted false ;; (lifePort R α X).take) :: .fn :: k) := by
  induction f using Nat.strongRecOn generalizing l with
  | ind f ih =>
    have h1 : R.K.node (R.K.ptr l.fl.old_pool.v) = some c := by rw [ho]; exact hc
    refine .step rfl (.ff (by simp [lifePort, h1]) (.step rfl (.step rfl ?_)))
    refine Ends.mono (n := (m + 30 * f + 15) + 1) ?_ (by omega)
    refine LEnds.go (s' := s) (l' := { l with fl := { l.fl with new_pool_ptr := R.K.ptr (s.mem.next c) } }) hg ?_
      (by simp [Port.readLink, Port.acc, lifePort, h1]) rfl ?_
    · refine .step rfl (.step rfl (.step rfl ?_))
      refine Ends.mono (n := (m + 30 * f + 8) + 1) ?_ (by omega)
      have hrun : ∀ {l' : LifeVars R.K}, l'.fl.old_pool = s.mem.poolSnap →
          l'.fl.new_pool = R.K.pack (R.K.ptr (s.mem.next c)) (R.K.next (R.K.tag s.mem.pool)) →
          ((lifePort R α X).casPool (O := LifeOp) true).run t s l' .go = some ({ s with mem := SMem.take R s.mem c }, { l' with fl := { l'.fl with cas := true } }, .next) ∧
          ((lifePort R α X).casPool (O := LifeOp) true).run t s l' .spur = some (s, { l' with fl := { l'.fl with cas := false, old_pool := s.mem.poolSnap } }, .next) ∧
          ((lifePort R α X).casPool (O := LifeOp) true).ok s l' .go = true := by
        intro l' h2 h3
        have := hf.pos
        refine ⟨?_, ?_, ?_⟩
        · simp [Port.casPool, Port.acc, lifePort, h2, h3, SMem.poolSnap, SMem.take]
        · simp [Port.casPool, Port.acc, lifePort]
        · simp [Port.casPool, Port.acc, lifePort, h2, SMem.poolSnap]; omega
      have h4 := hrun (l' := { l with fl := { l.fl with new_pool_ptr := R.K.ptr (s.mem.next c), new_pool := R.K.pack (R.K.ptr (s.mem.next c)) (R.K.next (R.K.tag l.fl.old_pool.v)) } })
        ho (by rw [ho]; rfl)
      refine .acc ⟨.go, _, hg, rfl, h4.2.2, h4.1⟩ ?_ ?_ ?_
      · intro ch s' l' _ _ h2
        cases ch <;> simp [Port.casPool, Port.acc] at h2
        split at h2 <;> simp at h2
      · intro ch s' l' w _ _ hsp h2
        have : ch = .go := by cases ch <;> simp [Port.casPool, Port.acc, isSpur] at h2 hsp ⊢
        subst this
        have h5 := h2.symm.trans h4.1
        cases h5
        refine .tt rfl (.step rfl (.step rfl (.step rfl ?_)))
        refine Ends.mono (n := m + 30 * f) ?_ (by omega)
        refine h f (Nat.le_refl _) _ ?_
        exact h1
      · intro ch s' l' w g _ _ hsp hfg h2
        subst hfg
        have : ch = .spur := by cases ch <;> simp [isSpur] at hsp ⊢
        subst this
        have h5 := h2.symm.trans h4.2.1
        cases h5
        refine .ff rfl (.step rfl (.step rfl ?_))
        refine Ends.mono (n := m + 30 * g + 25) ?_ (by omega)
        refine ih g (by omega) ?_ ?_
        · rfl
        · exact fun g' hg' fl' => h g' (by omega) fl'
    · intro ch h
      cases ch <;> first | exact absurd rfl h | simp [Port.readLink, Port.acc, lifePort, h1] <;> simp [ho, SMem.poolSnap]

theorem allocate_ends (hf : R.Faithful) (hg : al .go) {c} (hc : R.K.node (R.K.ptr s.mem.pool) = some c)
    (h : ∀ g, g ≤ f → ∀ fl', fl'.node = some c → LEnds al t Q (m + 30 * g) g { s with mem := SMem.take R s.mem c } { l with fl := fl' } k) :
    LEnds al t Q (m + 30 * f + 30) f s l (.stm (.fn ((lifePort R α X).allocate false)) :: k) := by
  refine .step rfl (.step rfl (LEnds.go hg (.step rfl ?_)))
  refine Ends.mono (n := m + 30 * f + 25) ?_ (by omega)
  exact take_ends (l := { l with fl := { l.fl with old_pool := s.mem.poolSnap } }) hf hg hc rfl h

end

/-- The memory with node `n` taken from the freelist of `n + 1` nodes. -/
def dummyMem (R : Rep) (α : Type) (n : Nat) : SMem R.K α :=
  { SMem.take R (SMem.initial R (n + 1)) n with
    next := upd (SMem.initial R (n + 1) : SMem R.K α).next n (R.K.pack (R.K.hnd none) (R.encT 0)), nver := upd (SMem.initial R (n + 1) : SMem R.K α).nver n 0 }

theorem dummyMem_linked (hf : R.Faithful) (h : Chained R (SMem.initial R (n + 1) : SMem R.K α) (R.K.ptr ((SMem.initial R (n + 1) : SMem R.K α).next n)) (List.range n).reverse) :
    Linked R (dummyMem R α n) (R.K.ptr (dummyMem R α n).pool) (List.range n).reverse := by
  have h1 : R.K.ptr (dummyMem R α n).pool = R.K.ptr ((SMem.initial R (n + 1) : SMem R.K α).next n) := by
    obtain ⟨q, h2, h3⟩ := h.hnd
    show R.K.ptr (R.K.pack _ _) = _
    rw [h2]
    exact hf.words.ptr_pack q _ h3
  rw [h1]
  refine (h.congr fun c hc => ?_).linked hf
  have : c ≠ n := by simp at hc; omega
  simp [dummyMem, upd_ne _ _ _ this]

theorem ctor_total (hf : R.Faithful) (hn : n + 1 ≤ R.limit) (al : SChoice R.K LifeOp α → Prop) (hg : al .go) (w : R.K.W) (v : Nat)
    (x : SSnap R.K × SSnap R.K) (t : Nat) :
    Total (ctorProgram R α) al isSpur t (Life.raw R w v x) n (fun b => 30 * b + 60 * n + 261) fun s r =>
      (r = true ∧ s.freed = [] ∧ (⟨s.mem, s.x.1.v, s.x.1.ver, s.x.2.v, s.x.2.ver⟩ : SSt R.K α) = (SConf.initial R n).s ∧ (R.fixed = true → n + 1 ≤ 65535)) ∨
      (r = false ∧ (al .throw ∨ R.fixed = true ∧ 65535 < n + 1) ∧ s.freed = [] ∧ CtorThrew R (n + 1) (Life.raw (α := α) R w v x).mem s.mem) ∨
      (r = false ∧ al .throw ∧ s.mem.nalloc = n + 1 ∧ s.freed = (givenBack R s.mem (List.range n).reverse).reverse) := by
  refine Total.of_ends (N := fun b => 30 * b + 60 * n + 260) (fun _ _ _ => rfl) rfl fun f => ?_
  refine .step rfl (.step rfl (.step rfl (.step rfl ?_)))
  refine assign_ends hg (.step rfl ?_)
  refine Ends.mono (n := (30 * f + 20 * n + 140) + 40 * (n + 1) + 40) ?_ (by omega)
  refine freelistCtor_ends (l := { LifeVars.init R.zero with count := n + 1 }) (w := w) (v := v) (fun _ => hf) hg (fun _ => hn) ?_ ?_
  · intro h65 l' hl
    have hch := Chained.initial (α := α) hf hn
    rw [List.range_succ, List.reverse_append] at hch
    cases hch with
    | cons h1 h2 h3 =>
    have hc : R.K.node (R.K.ptr (SMem.initial R (n + 1) : SMem R.K α).pool) = some n := node_of hf h2 h1
    refine .step rfl (.step rfl (.step rfl (.step rfl (.step rfl ?_))))
    refine Ends.mono (n := (20 * n + 80) + 30 * f + 30) ?_ (by omega)
    refine allocate_ends (s := ⟨SMem.initial R (n + 1), [], (zeroHandle R, zeroHandle R)⟩) hf hg hc fun g hgf fl' hfl => ?_
    refine Ends.mono (n := (20 * n + 60) + 8) ?_ (by omega)
    refine .tt (by simp [hfl]) (.step rfl ?_)
    refine LEnds.go (s' := ⟨dummyMem R α n, [], (zeroHandle R, zeroHandle R)⟩) (l' := { l' with fl := fl' }) hg ?_ ?_ rfl ?_
    · refine Ends.mono (n := (20 * n + 50) + 1) ?_ (by omega)
      have hd : (SMem.initial R (n + 1) : SMem R.K α).data n = none := by rw [SMem.initial_data]
      refine .acc ⟨.go, _, hg, rfl, rfl, by simp [dummyData, hfl, dummyMem, SMem.take, hd]; rfl⟩ ?_ ?_ ?_
      · intro ch s' l' _ _ h4
        cases ch <;> simp [dummyData, hfl, dummyMem, SMem.take, hd] at h4
      · intro ch s' l'' w' ha _ _ h4
        cases ch <;> simp [dummyData, hfl, dummyMem, SMem.take, hd] at h4
        · obtain ⟨rfl, rfl, rfl⟩ := h4
          refine .step rfl (.step rfl (.step rfl (.step rfl (.step rfl (.step rfl (assign_ends hg (assign_ends hg ?_)))))))
          refine .step rfl (.step rfl (.step rfl (.step rfl (.step rfl ?_))))
          refine .here ⟨rfl, .inl ⟨rfl, rfl, ?_, h65⟩⟩
          simp [SConf.initial, SSt.ofMem, hc, hfl]
        · obtain ⟨rfl, rfl, rfl⟩ := h4
          refine .step rfl (Ends.mono (n := 5 + 20 * ((List.range n).reverse).length + 20) ?_ (by simp; omega))
          refine freelistDtor_ends (s := ⟨dummyMem R α n, [], (zeroHandle R, zeroHandle R)⟩) hg (dummyMem_linked hf h3)
            (List.nodup_reverse.2 List.nodup_range) (fun c hc => ?_) rfl fun l' => ?_
          · simp at hc
            simp [dummyMem, SMem.take, SMem.initial_nalloc]
            omega
          · refine .step rfl (.step rfl (.here ⟨rfl, .inr (.inr ⟨rfl, ha, ?_, rfl⟩)⟩))
            simp [dummyMem, SMem.take, SMem.initial_nalloc]
      · intro ch s' l' w g _ _ h3 _ h2
        cases ch <;> simp [isSpur] at h3
        simp [dummyData, hfl] at h2
    · simp [dummyNext, hfl, dummyMem, SMem.take]
    · intro ch h
      cases ch <;> first | exact absurd rfl h | simp [dummyNext, hfl]
  · intro hth mem' l' hc hl
    exact .step rfl (.here ⟨rfl, .inr (.inl ⟨rfl, hth, rfl, hc⟩)⟩)

/-- **C59 (queue: constructor as program text).** The constructor of a queue for `n` elements, executed by any thread in any memory, ends, without undefined behaviour, after a
number of steps bounded in terms of `n` and of the number of spurious failures. If it returns, then the queue is the one executions start from, and nothing has been given back to the
allocator; a fixed-size queue then has at most 65535 nodes. If it throws, then either the freelist has not been constructed: the fixed-size queue has not obtained any memory, that of
variable size has obtained at most `n` nodes, none of which has been given back; or the constructor of the dummy's payload has thrown: the fixed-size queue has given back its memory,
that of variable size has given back each of its `n + 1` nodes once, but for the dummy, which is lost. -/
theorem queue_text_constructor (hf : R.Faithful) (hn : n + 1 ≤ R.limit) (w : R.K.W) (v : Nat) (x : SSnap R.K × SSnap R.K) (t : Nat) :
    Total (ctorProgram R α) (fun _ => True) isSpur t (Life.raw R w v x) n (fun b => 30 * b + 60 * n + 261) fun s r =>
      (r = true → s.freed = [] ∧ (⟨s.mem, s.x.1.v, s.x.1.ver, s.x.2.v, s.x.2.ver⟩ : SSt R.K α) = (SConf.initial R n).s ∧ (R.fixed = true → n + 1 ≤ 65535)) ∧
      (r = false → (s.freed = [] ∧ if R.fixed then s.mem.nalloc = 0 else s.mem.nalloc < n + 1) ∨
        (s.mem.nalloc = n + 1 ∧ s.freed.Perm (List.range (if R.fixed then n + 1 else n)))) := by
  refine (ctor_total hf hn _ trivial w v x t).mono ?_
  rintro s r (⟨rfl, h2⟩ | ⟨rfl, -, h1, h2⟩ | ⟨rfl, -, h1, h2⟩)
  · exact ⟨fun _ => h2, by simp⟩
  · refine ⟨by simp, fun _ => .inl ⟨h1, ?_⟩⟩
    unfold CtorThrew at h2
    split at h2
    · rename_i hfx; rw [if_pos hfx, h2]; rfl
    · rename_i hfx
      obtain ⟨j, h3, h4⟩ := h2
      rw [if_neg hfx, h4, SMem.initial_nalloc]; exact h3
  · refine ⟨by simp, fun _ => .inr ⟨h1, ?_⟩⟩
    rw [h2]
    unfold givenBack
    split
    · rw [h1]; exact List.reverse_perm _
    · rw [List.reverse_reverse]

/-- **C59 (queue: the constructor throws for a reason).** If neither the allocator nor the constructor of the payload throws, and a fixed-size queue has at most 65535 nodes,
the constructor returns. -/
theorem queue_text_constructor_returns (hf : R.Faithful) (hn : n + 1 ≤ R.limit) (h65 : R.fixed = true → n + 1 ≤ 65535) (w : R.K.W) (v : Nat)
    (x : SSnap R.K × SSnap R.K) (t : Nat) :
    Total (ctorProgram R α) (fun ch => ch ≠ .throw) isSpur t (Life.raw R w v x) n (fun b => 30 * b + 60 * n + 261) fun s r =>
      r = true ∧ s.freed = [] ∧ (⟨s.mem, s.x.1.v, s.x.1.ver, s.x.2.v, s.x.2.ver⟩ : SSt R.K α) = (SConf.initial R n).s := by
  refine (ctor_total hf hn _ (by simp) w v x t).mono ?_
  rintro s r (⟨rfl, h1, h2, -⟩ | ⟨rfl, h2 | ⟨h2, h3⟩, -⟩ | ⟨-, h2, -⟩)
  · exact ⟨rfl, h1, h2⟩
  · simp at h2
  · have := h65 h2; omega
  · simp at h2

/-- **C59 (queue: too many nodes).** The constructor of a fixed-size queue of more than 65535 nodes throws, without obtaining memory. -/
theorem queue_text_constructor_too_large (hfx : R.fixed = true) (hn : 65535 < n + 1) (w : R.K.W) (v : Nat) (x : SSnap R.K × SSnap R.K) (t : Nat) :
    Total (ctorProgram R α) (fun _ => True) isSpur t (Life.raw R w v x) n (fun _ => 40 * n + 101) fun s r => r = false ∧ s.freed = [] ∧ s.mem.nalloc = 0 := by
  refine Total.of_ends (N := fun _ => 40 * n + 100) (fun _ _ _ => rfl) rfl fun f => ?_
  refine .step rfl (.step rfl (.step rfl (.step rfl ?_)))
  refine assign_ends trivial (.step rfl ?_)
  refine Ends.mono (n := 10 + 40 * (n + 1) + 40) ?_ (by omega)
  refine freelistCtor_ends (l := { LifeVars.init R.zero with count := n + 1 }) (w := w) (v := v) (fun h => absurd (h hfx) (Nat.not_le.2 hn)) trivial (by simp [hfx]) ?_ ?_
  · exact fun h => absurd (h hfx) (Nat.not_le.2 hn)
  · intro hth mem' l' hc hl
    rw [CtorThrew, if_pos hfx] at hc
    exact .step rfl (.here ⟨rfl, rfl, rfl, by rw [hc]; rfl⟩)

end Verif.Queue.Code
