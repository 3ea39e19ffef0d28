import Verif.TextLife
import Verif.Stack.TextUnsyncProps
import Verif.Stack.Destroy
import Verif.Stack.Reported

/-!
# Constructor and destructor of `include/boost/lockfree/stack.hpp` as structured programs (C59)
-/

namespace Verif.Stack.Code
open Lin Text

variable {α : Type} {R : Rep}

/-- The loop of `consume_all` (stack.hpp:583-584): `while ( consume_one( f ) ) element_count += 1`. -/
def consumeAllLoop : LStm R α :=
  .fn consumeOne ;;
  .ite (fun l => l.result matches .popped none) .brk .skip ;;
  .set (fun l => { l with element_count := l.element_count + 1 })

/-- `consume_all( f )` (stack.hpp:580-598). -/
def consumeAll : LStm R α :=
  .set (fun l => { l with element_count := 0 }) ;;
  .forever consumeAllLoop ;;
  .set (fun l => { l with returned := some l.element_count })

/-- The body of `~stack` (stack.hpp:249-253); the result consists of the elements the functor was applied to, and the number `consume_all` returned. -/
def dtorProgram (R : Rep) (α : Type) : Program (SSt R.K α) (Loc R.K α) (SChoice R.K (Op α) α) Unit (List α × Option Nat) where
  body _ _ := some (Loc.init R.zero, .fn consumeAll)
  result l := (l.applied, l.returned)

/-! ### What the program does -/

variable {t n m f j : Nat} {Q : SSt R.K α → Loc R.K α → LRest R α → Prop} {s : SSt R.K α} {l : Loc R.K α} {k : LRest R α}

/-- Every execution of `k` ends where `Q` holds. -/
abbrev SEnds (t : Nat) (Q : SSt R.K α → Loc R.K α → LRest R α → Prop) (n f : Nat) (s : SSt R.K α) (l : Loc R.K α) (k : LRest R α) : Prop :=
  Ends t (fun _ => True) isSpur Q n f s l k

theorem SEnds.go {a : LAcc R α} {s' l'} (h : SEnds t Q n f s' l' k) (hr : a.run t s l .go = some (s', l', .next) := by rfl)
    (hok : a.ok s l .go = true := by rfl)
    (ho : ∀ ch, ch ≠ .go → a.run t s l ch = none := by intro ch h; cases ch <;> first | rfl | exact absurd rfl h) :
    SEnds t Q (n + 1) f s l (.stm (.acc a) :: k) :=
  Ends.only .go trivial rfl hok hr ho h

/-- A compare-exchange that succeeds unless it fails spuriously. -/
theorem SEnds.cas {a : LAcc R α} {s' l' l''} (h : SEnds t Q n f s' l' k) (h' : ∀ g, f = g + 1 → SEnds t Q n g s l'' k)
    (hr : a.run t s l .go = some (s', l', .next)) (hs : a.run t s l .spur = some (s, l'', .next)) (hok : a.ok s l .go = true)
    (ho : ∀ ch, ch ≠ .go → ch ≠ .spur → a.run t s l ch = none) : SEnds t Q (n + 1) f s l (.stm (.acc a) :: k) := by
  refine .acc ⟨.go, _, trivial, rfl, hok, hr⟩ ?_ ?_ ?_
  · intro ch s₁ l₁ _ _ h1
    by_cases hg : ch = .go
    · subst hg; rw [hr] at h1; cases h1
    by_cases hp : ch = .spur
    · subst hp; rw [hs] at h1; cases h1
    rw [ho ch hg hp] at h1; cases h1
  · intro ch s₁ l₁ w _ _ h2 h1
    by_cases hg : ch = .go
    · subst hg; rw [hr] at h1; cases h1; exact h
    rw [ho ch hg (by rintro rfl; cases h2)] at h1; cases h1
  · intro ch s₁ l₁ w g _ _ h2 h3 h1
    cases ch <;> simp [isSpur] at h2
    rw [hs] at h1; cases h1; exact h' g h3

theorem deallocUnsafe_setLink (hf : R.Faithful) (m : SMem R.K α) (c : Nat) : (m.setLink c (R.K.ptr m.pool)).deallocUnsafe R c = m.deallocUnsafe R c := by
  simp only [SMem.deallocUnsafe, SMem.setLink, upd_self, upd_upd, hf.words.tag_pack]

/-- The loop of `deallocate_impl`. -/
theorem give_ends (hf : R.Faithful) {c} (hn : l.fl.n = some c) (ho : l.fl.old_pool = s.mem.poolSnap)
    (h : ∀ g, g ≤ f → ∀ fl', SEnds t Q (m + 30 * g) g { s with mem := s.mem.deallocUnsafe R c } { l with fl := fl' } k) :
    SEnds t Q (m + 30 * f + 15) f s l (.stm (port R α).give :: .loop (port R α).give :: .fn :: k) := by
  induction f using Nat.strongRecOn generalizing s l with
  | ind f ih =>
    refine Ends.mono (n := (m + 30 * f + 7) + 1 + 4) ?_ (by omega)
    refine .step rfl (.step rfl (.step rfl (Ends.mono (n := (m + 30 * f + 7) + 1) ?_ (by omega))))
    refine SEnds.go (s' := { s with mem := s.mem.setLink c (R.K.ptr s.mem.pool) })
      (l' := { l with fl := { l.fl with new_pool := R.K.pack (R.K.hnd (some c)) (R.K.tag s.mem.pool) } }) ?_
      (by simp [Port.setLink, Port.acc, port, hn, ho, SMem.poolSnap]) rfl ?_
    · refine .step rfl (Ends.mono (n := (m + 30 * f + 5) + 1) ?_ (by omega))
      refine SEnds.cas (s' := { s with mem := s.mem.deallocUnsafe R c })
        (l' := { l with fl := { l.fl with new_pool := R.K.pack (R.K.hnd (some c)) (R.K.tag s.mem.pool), cas := true } })
        (l'' := { l with fl := { l.fl with new_pool := R.K.pack (R.K.hnd (some c)) (R.K.tag s.mem.pool), cas := false } }) ?_ ?_ ?_ ?_ ?_ ?_
      · exact .tt rfl (.step rfl ((h f (Nat.le_refl _) _).mono (by omega)))
      · rintro g rfl
        refine .ff rfl (.step rfl (.step rfl (Ends.mono (ih g (by omega) (s := { s with mem := s.mem.setLink c (R.K.ptr s.mem.pool) }) ?_ ?_ ?_) (by omega))))
        · exact hn
        · exact ho
        · intro g' hg' fl'
          have := h g' (by omega) fl'
          rw [← deallocUnsafe_setLink hf] at this
          exact this
      · simp [Port.casPool, Port.acc, port, ho, SMem.poolSnap, SMem.deallocUnsafe, SMem.setLink]
      · simp [Port.casPool, Port.acc, port, ho, SMem.poolSnap, SMem.setLink]
      · simp [Port.casPool, Port.acc]
      · intro ch h1 h2
        cases ch <;> first | exact absurd rfl h1 | exact absurd rfl h2 | rfl
    · intro ch h
      cases ch <;> first | exact absurd rfl h | simp [Port.setLink, Port.acc, port, hn]

theorem dealloc_ends (hf : R.Faithful) {c} (hn : l.fl.n = some c)
    (h : ∀ g, g ≤ f → ∀ fl', SEnds t Q (m + 30 * g) g { s with mem := s.mem.deallocUnsafe R c } { l with fl := fl' } k) :
    SEnds t Q (m + 30 * f + 20) f s l (.stm (.fn (port R α).deallocate) :: k) := by
  refine .step rfl (.step rfl ?_)
  refine SEnds.go ?_
  refine .step rfl ?_
  refine Ends.mono (n := m + 30 * f + 15) ?_ (by omega)
  exact give_ends (l := { l with fl := { l.fl with old_pool := s.mem.poolSnap } }) hf hn rfl h

/-- `consume_one` on a stack that is empty. -/
theorem consumeOne_nil (h0 : R.K.node (R.K.ptr s.tos) = none)
    (h : ∀ l', l'.applied = l.applied → l'.element_count = l.element_count → l'.result = .popped none → SEnds t Q m f s l' k) :
    SEnds t Q (m + 20) f s l (.stm (.fn consumeOne) :: k) := by
  have h1 : R.K.node (R.K.ptr s.tosSnap.v) = none := h0
  refine .step rfl (.step rfl ?_)
  refine SEnds.go ?_
  ctls
  refine Ends.mono (n := m) ?_ (by omega)
  exact h _ rfl rfl rfl

/-- The state after `consume_one` has taken node `c`. -/
def SSt.taken (R : Rep) (s : SSt R.K α) (c : Nat) : SSt R.K α :=
  { tos := R.K.pack (R.K.ptr (s.mem.next c)) (R.K.next (R.K.tag s.tos)), tosVer := s.tosVer + 1, mem := (s.mem.setData c none).deallocUnsafe R c }

/-- The end of `consume_one`. -/
theorem consumed_ends (hf : R.Faithful) {c v} (hp : l.old_tos_pointer = some c) (ho : R.K.node (R.K.ptr l.old_tos.v) = some c) (hv : s.mem.data c = some v)
    (ht : l.thr = none) {i}
    (h : ∀ g, g ≤ f → ∀ l', l'.applied = l.applied ++ [v] → l'.thr = none → l'.element_count = l.element_count → (∃ w, l'.result = .popped (some w)) →
      SEnds t Q (m + 30 * g) g { s with mem := (s.mem.setData c none).deallocUnsafe R c } l' k) :
    SEnds t Q (m + 30 * f + 40) f s l (.stm consumed :: .loop i :: .fn :: k) := by
  ctls
  refine SEnds.go (s' := s) (l' := { l with applied := l.applied ++ [v] }) ?_ (by simp [apply, hp, hv, ht]) rfl ?_
  · ctls
    refine SEnds.go (s' := { s with mem := s.mem.setData c none }) (l' := { l with applied := l.applied ++ [v], fl := { l.fl with n := some c } }) ?_
      (by simp [Port.dtor, Port.acc, port, ho, hv]) rfl ?_
    · refine Ends.mono (n := (m + 5) + 30 * f + 20) ?_ (by omega)
      refine dealloc_ends hf (c := c) rfl fun g hg fl' => ?_
      refine Ends.mono (n := m + 30 * g + 5) ?_ (by omega)
      ctls
      refine Ends.mono (n := m + 30 * g) ?_ (by omega)
      refine h g hg _ ?_ ?_ ?_ ?_
      · rfl
      · exact ht
      · rfl
      · cases h1 : l.applied with
        | nil => exact ⟨v, by simp⟩
        | cons a as => exact ⟨a, by simp⟩
    · intro ch h
      cases ch <;> first | exact absurd rfl h | simp [Port.dtor, Port.acc, port, ho]
  · intro ch h
    cases ch <;> first | exact absurd rfl h | simp [apply, hp]

/-- The loop of `consume_one` on a stack whose first node is `c`. -/
theorem consumeOneLoop_cons (hf : R.Faithful) {c v} (h0 : R.K.node (R.K.ptr s.tos) = some c) (hv : s.mem.data c = some v) (ht : l.thr = none)
    (ho : l.old_tos = s.tosSnap)
    (h : ∀ g, g ≤ f → ∀ l', l'.applied = l.applied ++ [v] → l'.thr = none → l'.element_count = l.element_count → (∃ w, l'.result = .popped (some w)) →
      SEnds t Q (m + 30 * g) g (SSt.taken R s c) l' k) :
    SEnds t Q (m + 30 * f + 60) f s l (.stm consumeOneLoop :: .loop consumeOneLoop :: .fn :: k) := by
  induction f using Nat.strongRecOn generalizing l with
  | ind f ih =>
    have h1 : R.K.node (R.K.ptr s.tosSnap.v) = some c := h0
    have h2 : R.K.node (R.K.ptr l.old_tos.v) = some c := by rw [ho]; exact h0
    ctls
    refine SEnds.go (s' := s) (l' := { l with old_tos_pointer := some c, old_tos_next := R.K.ptr (s.mem.next c) }) ?_ (by simp [readNextSpec, h2]) rfl ?_
    · ctls
      refine SEnds.cas (s' := { s with tos := R.K.pack (R.K.ptr (s.mem.next c)) (R.K.next (R.K.tag s.tos)), tosVer := s.tosVer + 1 })
        (l' := { l with old_tos_pointer := some c, old_tos_next := R.K.ptr (s.mem.next c), new_tos := R.K.pack (R.K.ptr (s.mem.next c)) (R.K.next (R.K.tag s.tos)), cas := true })
        (l'' := { l with old_tos_pointer := some c, old_tos_next := R.K.ptr (s.mem.next c), new_tos := R.K.pack (R.K.ptr (s.mem.next c)) (R.K.next (R.K.tag s.tos)), cas := false })
        ?_ ?_ ?_ ?_ ?_ ?_
      · refine .tt rfl (Ends.mono (n := m + 30 * f + 40) ?_ (by omega))
        refine consumed_ends hf (c := c) (v := v) ?_ ?_ ?_ ?_ ?_
        · rfl
        · exact h2
        · exact hv
        · exact ht
        · exact h
      · rintro g rfl
        refine .ff rfl (.step rfl (.step rfl ?_))
        refine Ends.mono (n := m + 30 * g + 60) ?_ (by omega)
        refine ih g (by omega) ?_ ?_ ?_
        · exact ht
        · exact ho
        · exact fun g' h3 => h g' (by omega)
      · simp [casTos, ho, SSt.tosSnap]
      · simp [casTos, ho, SSt.tosSnap]
      · have := hf.pos
        simp [casTos, ho, SSt.tosSnap]; omega
      · intro ch h1 h2
        cases ch <;> first | exact absurd rfl h1 | exact absurd rfl h2 | rfl
    · intro ch h
      cases ch <;> first | exact absurd rfl h | simp [readNextSpec, h2] <;> simp [ho, SSt.tosSnap]

/-- `consume_one` on a stack whose first node is `c`. -/
theorem consumeOne_cons (hf : R.Faithful) {c v} (h0 : R.K.node (R.K.ptr s.tos) = some c) (hv : s.mem.data c = some v) (ht : l.thr = none)
    (h : ∀ g, g ≤ f → ∀ l', l'.applied = l.applied ++ [v] → l'.thr = none → l'.element_count = l.element_count → (∃ w, l'.result = .popped (some w)) →
      SEnds t Q (m + 30 * g) g (SSt.taken R s c) l' k) :
    SEnds t Q (m + 30 * f + 64) f s l (.stm (.fn consumeOne) :: k) := by
  refine .step rfl (.step rfl ?_)
  refine SEnds.go ?_
  refine .step rfl ?_
  refine consumeOneLoop_cons (l := { l with old_tos := s.tosSnap }) hf h0 hv ?_ ?_ ?_
  · exact ht
  · rfl
  · exact h

/-- A stack no thread is using: `F` are the nodes in the freelist, `S` those in the stack, `σ` the elements in them. -/
structure AtRest (R : Rep) (s : SSt R.K α) (F S : List Nat) (σ : List α) : Prop where
  pool : Chained R s.mem (R.K.ptr s.mem.pool) F
  tos : Chained R s.mem (R.K.ptr s.tos) S
  nodup : (F ++ S).Nodup
  alloc : ∀ c ∈ F ++ S, c < s.mem.nalloc
  data : S.map s.mem.data = σ.map some
  free : ∀ c ∈ F, s.mem.data c = none

theorem AtRest.taken (hf : R.Faithful) {F S c v} {σ : List α} (h : AtRest R s F (c :: S) (v :: σ)) : AtRest R (SSt.taken R s c) (c :: F) S σ := by
  have hn := h.nodup
  have hnF : c ∉ F := by
    intro h1
    have := (List.nodup_append.1 hn).2.2 c h1 c (by simp)
    exact this rfl
  have hnS : c ∉ S := ((List.nodup_append.1 hn).2.1.notMem)
  have hp : ((c :: F) ++ S).Perm (F ++ c :: S) := List.perm_middle.symm
  cases h.tos with
  | cons h1 h2 h3 =>
  have hpool : Chained R (s.mem.setData c none) (R.K.ptr (s.mem.setData c none).pool) F := h.pool.congr fun _ _ => rfl
  refine ⟨hpool.dealloc hf h2 hnF, ?_, hp.nodup_iff.2 hn, fun d hd => h.alloc d (hp.mem_iff.1 hd), ?_, ?_⟩
  · obtain ⟨q, hq, hq'⟩ := h3.hnd
    have h4 : R.K.ptr (SSt.taken R s c).tos = R.K.ptr (s.mem.next c) := by
      simp only [SSt.taken, hq]
      exact hf.words.ptr_pack _ _ hq'
    rw [h4]
    refine h3.congr fun d hd => ?_
    have : d ≠ c := by rintro rfl; exact hnS hd
    simp [SSt.taken, SMem.deallocUnsafe, SMem.setLink, SMem.setData, upd_ne _ _ _ this]
  · have h5 := h.data
    simp only [List.map_cons, List.cons.injEq] at h5
    rw [← h5.2]
    refine List.map_congr_left fun d hd => ?_
    have : d ≠ c := by rintro rfl; exact hnS hd
    simp [SSt.taken, SMem.deallocUnsafe, SMem.setLink, SMem.setData, upd_ne _ _ _ this]
  · intro d hd
    by_cases hdc : d = c
    · subst hdc; simp [SSt.taken, SMem.deallocUnsafe, SMem.setLink, SMem.setData]
    · have : d ∈ F := by simpa [hdc] using hd
      simpa [SSt.taken, SMem.deallocUnsafe, SMem.setLink, SMem.setData, upd_ne _ _ _ hdc] using h.free d this

/-- The loop of `consume_all`. -/
theorem consumeAllLoop_ends (hf : R.Faithful) {F S} {σ : List α} (ha : AtRest R s F S σ) (ht : l.thr = none)
    (hdone : ∀ g, g ≤ f → ∀ s' l', l'.applied = l.applied ++ σ → l'.element_count = l.element_count + σ.length → AtRest R s' (S.reverse ++ F) [] [] →
      s'.mem.nalloc = s.mem.nalloc → (∀ c, c ∉ S → s'.mem.data c = s.mem.data c) → SEnds t Q (m + 30 * g) g s' l' k) :
    SEnds t Q (m + 30 * f + 80 * σ.length + 30) f s l (.stm consumeAllLoop :: .loop consumeAllLoop :: k) := by
  induction S generalizing s l F σ f with
  | nil =>
    have h1 : σ = [] := by simpa using ha.data.symm
    subst h1
    refine .step rfl (Ends.mono (n := (m + 30 * f + 9) + 20) ?_ (by simp))
    refine consumeOne_nil ?_ fun l' h1 h2 h3 => ?_
    · cases ha.tos.linked hf with
      | nil h => exact h
    · refine .step rfl (.tt ?_ (.step rfl ?_))
      · simp [h3]
      · refine (hdone f (Nat.le_refl _) s l' ?_ ?_ ?_ rfl fun _ _ => rfl).mono (by omega)
        · simpa using h1
        · simpa using h2
        · simpa using ha
  | cons c S ih =>
    cases σ with
    | nil => have := ha.data; simp at this
    | cons v σ =>
      have hv : s.mem.data c = some v := by simpa using (List.cons.inj ha.data).1
      refine .step rfl (Ends.mono (n := (m + 80 * σ.length + 40) + 30 * f + 64) ?_ (by simp only [List.length_cons]; omega))
      refine consumeOne_cons hf (c := c) (v := v) ?_ hv ht fun g hg l' h1 h2 h3 h4 => ?_
      · cases ha.tos.linked hf with
        | cons h => exact h
      · obtain ⟨w, h4⟩ := h4
        refine Ends.mono (n := m + 30 * g + 80 * σ.length + 30 + 5) ?_ (by omega)
        refine .step rfl (.ff ?_ (.step rfl (.step rfl (.step rfl ?_))))
        · simp [h4]
        · refine ih (ha.taken hf) ?_ ?_
          · exact h2
          · intro g' hg' s' l'' h5 h6 h7 h8 h9
            refine hdone g' (by omega) s' l'' ?_ ?_ ?_ ?_ ?_
            · rw [h5]; simp [h1]
            · rw [h6]; simp [h3]; omega
            · simpa using h7
            · rw [h8]; rfl
            · intro d hd
              simp at hd
              rw [h9 d hd.2]
              simp [SSt.taken, SMem.deallocUnsafe, SMem.setLink, SMem.setData, upd_ne _ _ _ hd.1]

/-- **C59 (stack: body of the destructor).** -/
theorem dtor_body_total (hf : R.Faithful) {F S} {σ : List α} (ha : AtRest R s F S σ) (t : Nat) :
    Total (dtorProgram R α) (fun _ => True) isSpur t s () (fun b => 30 * b + 80 * σ.length + 41) fun s' r =>
      r = (σ, some σ.length) ∧ AtRest R s' (S.reverse ++ F) [] [] ∧ s'.mem.nalloc = s.mem.nalloc ∧ ∀ c, c ∉ S → s'.mem.data c = s.mem.data c := by
  refine Total.of_ends (N := fun b => 30 * b + 80 * σ.length + 40) (fun _ _ _ => rfl) rfl fun f => ?_
  refine .step rfl (.step rfl (.step rfl (.step rfl (.step rfl ?_))))
  refine Ends.mono (n := 5 + 30 * f + 80 * σ.length + 30) ?_ (by omega)
  refine consumeAllLoop_ends hf ha ?_ ?_
  · rfl
  · intro g hg s' l' h1 h2 h3 h4 h5
    refine Ends.mono (n := 0 + 30 * g + 5) ?_ (by omega)
    refine .step rfl (.step rfl (.here ⟨rfl, ?_, h3, h4, h5⟩))
    simp only [dtorProgram, h1, h2]
    simp [Loc.init]

/-- What executions lead to, when no call is in progress. -/
theorem MixedText.atRest (hf : R.Faithful) {h : History (Op α) (Ret α)} {C} (hn : n ≤ R.limit) (hx : MixedText R n h C) (hq : ∀ t, C.pc t = .idle) :
    ∃ F S σ, AtRest R C.s F S σ ∧ C.s.mem.nalloc ≤ R.limit ∧
      (¬ Threw h → (F ++ S).Perm (List.range C.s.mem.nalloc) ∧ ∀ m, m ∉ S → C.s.mem.data m = none) := by
  obtain ⟨D, h1, h2, h3⟩ := stack_mixed_refines hf hn hx
  obtain ⟨A, h4, hr⟩ := stack_words_simulated hf hn h1
  have hq' : ∀ t, A.pc t = .idle := by
    intro t
    obtain ⟨_, h5⟩ := h3 t
    rw [hq t] at h5
    have h6 := hr.pc t
    rw [show D.pc t = .idle from h5] at h6
    generalize A.pc t = p at h6
    cases h6
    rfl
  obtain ⟨E, h5⟩ := h4.execD
  obtain ⟨g, c, hi, -, hE⟩ := h5.inv
  have hst := hr.st
  rw [h2] at hst
  have hno : ∀ m t, g.own m ≠ .thr t := by
    intro m t; rw [Ne, ← hi.heldBy]; simp [hq' t, HeldBy]
  have hnd : (g.F ++ g.S).Nodup := by
    refine List.nodup_append.2 ⟨hi.si.heap.fnodup, hi.si.nodup, fun a ha b hb => ?_⟩
    rintro rfl
    rw [← hi.si.heap.fmem] at ha
    rw [← hi.si.mem, ha] at hb
    cases hb
  have hin : ∀ m, m ∈ g.F ++ g.S → m < A.s.heap.nalloc := by
    intro m hm
    have h6 := hi.si.heap.raw m
    rw [List.mem_append, ← hi.si.heap.fmem, ← hi.si.mem] at hm
    rw [← Nat.not_le, ← h6]
    rcases hm with h7 | h7 <;> simp [h7]
  refine ⟨g.F, g.S, c.st, ⟨?_, ?_, hnd, ?_, ?_, ?_⟩, by rw [hst.mem.nalloc]; exact hst.mem.limit, fun hT => ?_⟩
  · rw [hst.mem.pool, hf.ptr (hst.mem.okPool.mono hst.mem.limit)]
    exact .of_rel hf hst.mem hi.si.heap.chain hst.mem.okPool.1
  · rw [hst.tos, hf.ptr (hst.ok.mono hst.mem.limit)]
    exact .of_rel hf hst.mem hi.si.chain hst.ok.1
  · intro m hm; rw [hst.mem.nalloc]; exact hin m hm
  · rw [hst.mem.data]; exact hi.si.data
  · intro m hm; rw [hst.mem.data]; exact hi.si.heap.fdata m (.inl ((hi.si.heap.fmem m).2 hm))
  · have hall : ∀ m, g.own m = .raw ∨ g.own m = .free ∨ g.own m = .str := by
      intro m
      cases hm : g.own m with
      | thr t => exact absurd hm (hno m t)
      | lost => exact absurd ((hE m).1 hm) (dropped_reported h5 hq' hT m)
      | _ => simp
    refine ⟨(List.perm_ext_iff_of_nodup hnd List.nodup_range).2 fun m => ⟨fun hm => ?_, fun hm => ?_⟩, fun m hm => ?_⟩
    · rw [List.mem_range, hst.mem.nalloc]; exact hin m hm
    · rw [List.mem_range, hst.mem.nalloc, ← Nat.not_le, ← hi.si.heap.raw] at hm
      rw [List.mem_append, ← hi.si.heap.fmem, ← hi.si.mem]
      rcases hall m with h6 | h6
      · exact absurd h6 hm
      · exact h6
    · rw [hst.mem.data]
      rw [← hi.si.mem] at hm
      refine hi.si.heap.fdata m ?_
      rcases hall m with h6 | h6 | h6
      · exact .inr h6
      · exact .inl h6
      · exact absurd h6 hm

/-- **C59, C20, C29 (stack: destructor as program text).** Take any execution of the program text, after which no call is in progress: `σ` are the elements in the stack, top first,
`S` the nodes they are in, `F` the nodes in the freelist. The body of `~stack`, executed by any thread, returns, without undefined behaviour, after a number of steps
bounded in terms of the number of elements and of spurious failures, and has then destroyed exactly the elements in the stack, top first, each once; the destructor of
the member `pool` then returns, without undefined behaviour, after a bounded number of steps, and has then given back each of the nodes `F` and `S` exactly once (the array
as a whole), and nothing else. If no exception has been thrown, `F` and `S` are all nodes ever allocated, and no element is left in any node. -/
theorem stack_text_destructor (hf : R.Faithful) {h : History (Op α) (Ret α)} {C} (hn : n ≤ R.limit) (hx : MixedText R n h C) (hq : ∀ t, C.pc t = .idle)
    (t : Nat) :
    ∃ F S σ, Linked R C.s.mem (R.K.ptr C.s.mem.pool) F ∧ Linked R C.s.mem (R.K.ptr C.s.tos) S ∧ S.map C.s.mem.data = σ.map some ∧
      (¬ Threw h → (F ++ S).Perm (List.range C.s.mem.nalloc)) ∧
      Total (dtorProgram R α) (fun _ => True) isSpur t C.s () (fun b => 30 * b + 80 * σ.length + 41) fun s r =>
        r = (σ, some σ.length) ∧ (∀ m ∈ F ++ S, s.mem.data m = none) ∧ (¬ Threw h → ∀ m, s.mem.data m = none) ∧
        Total (poolDtorProgram R α Unit) (fun _ => True) isSpur t ⟨s.mem, [], ()⟩ () (fun _ => 20 * (F ++ S).length + 21) fun e _ =>
          e.freed.Nodup ∧ e.mem = s.mem ∧ if R.fixed then e.freed.Perm (List.range C.s.mem.nalloc) else e.freed.Perm (F ++ S) := by
  obtain ⟨F, S, σ, ha, -, hT⟩ := hx.atRest hf hn hq
  refine ⟨F, S, σ, ha.pool.linked hf, ha.tos.linked hf, ha.data, fun h => (hT h).1, ?_⟩
  refine (dtor_body_total hf ha t).mono fun s r ⟨h1, h2, h3, h4⟩ => ?_
  have hp : (S.reverse ++ F).Perm (F ++ S) := (List.perm_append_comm).trans ((List.reverse_perm S).append_left F)
  have hd : ∀ m ∈ F ++ S, s.mem.data m = none := fun m hm => h2.free m (hp.mem_iff.2 hm)
  have hnd : (S.reverse ++ F).Nodup := by simpa using h2.nodup
  refine ⟨h1, hd, fun h m => ?_, ?_⟩
  · by_cases hm : m ∈ S
    · exact hd m (by simp [hm])
    · rw [h4 m hm]; exact (hT h).2 m hm
  · rw [← hp.length_eq]
    refine (freelist_destructor_total (s := ⟨s.mem, [], ()⟩) (h2.pool.linked hf) hnd (fun c hc => h2.alloc c (by simpa using hc)) rfl t).mono fun e _ ⟨h5, h6, _⟩ => ?_
    simp only [givenBack] at h5
    split at h5
    · rename_i hfx
      rw [h5]
      refine ⟨List.nodup_reverse.2 List.nodup_range, h6, ?_⟩
      rw [if_pos hfx, ← h3]
      exact List.reverse_perm _
    · rename_i hfx
      rw [h5]
      refine ⟨List.nodup_reverse.2 hnd, h6, ?_⟩
      rw [if_neg hfx]
      exact (List.reverse_perm _).trans hp

/-! ### The constructor -/

/-- `initialize()` (stack.hpp:257-260): `tos.store( tagged_node_handle( pool.null_handle(), 0 ) )`. -/
def initTos : LifeAcc R α (SSnap R.K) := assign fun s _ => { s with x := ⟨R.K.pack (R.K.hnd none) (R.encT 0), 0⟩ }

/-- `stack( n )` (stack.hpp:140-214): `pool( alloc, n )`, then `initialize()`. If the constructor of `pool` throws, no destructor is called. -/
def ctor : LifeStm R α (SSnap R.K) :=
  freelistCtor ;;
  .acc initTos

/-- The constructor, called with the number of nodes; the result tells whether it has returned, not thrown. The member other than `pool` is `tos`. -/
def ctorProgram (R : Rep) (α : Type) : Program (Life R.K α (SSnap R.K)) (LifeVars R.K) (SChoice R.K LifeOp α) Nat Bool where
  body _ n := some ({ LifeVars.init R.zero with count := n }, lifeCall ctor)
  result l := l.returned

theorem ctor_total (hf : R.Faithful) (hn : R.fixed = false → n ≤ R.limit) (al : SChoice R.K LifeOp α → Prop) (hg : al .go) (w : R.K.W) (v : Nat) (x : SSnap R.K)
    (t : Nat) :
    Total (ctorProgram R α) al isSpur t (Life.raw R w v x) n (fun _ => 40 * n + 61) fun s r => s.freed = [] ∧
      ((r = true ∧ (⟨s.mem, s.x.v, s.x.ver⟩ : SSt R.K α) = (SConf.initial R n).s ∧ (R.fixed = true → n ≤ 65535)) ∨
       (r = false ∧ (al .throw ∨ R.fixed = true ∧ 65535 < n) ∧ s.x = x ∧ CtorThrew R n (Life.raw (α := α) R w v x).mem s.mem)) := by
  refine Total.of_ends (N := fun _ => 40 * n + 60) (fun _ _ _ => rfl) rfl fun f => ?_
  refine .step rfl (.step rfl (.step rfl (.step rfl ?_)))
  refine Ends.mono (n := 10 + 40 * n + 40) ?_ (by omega)
  refine freelistCtor_ends (l := { LifeVars.init R.zero with count := n }) (fun _ => hf) hg hn ?_ ?_
  · intro h65 l' hl
    refine LEnds.go hg ?_
    refine .step rfl (.step rfl (.step rfl (.here ⟨rfl, rfl, .inl ⟨rfl, rfl, h65⟩⟩)))
  · intro hth mem' l' hc hl
    exact .step rfl (.here ⟨rfl, rfl, .inr ⟨rfl, hth, rfl, hc⟩⟩)

/-- **C59 (stack: constructor as program text).** The constructor of a stack for `n` nodes, executed by any thread in any memory, ends, without undefined behaviour, after a
bounded number of steps. If it returns, then the stack is the one executions start from, and nothing has been given back to the allocator; a fixed-size stack then has at most 65535
nodes. If it throws, then the fixed-size stack has not obtained any memory, while that of variable size has obtained fewer than `n` nodes, none of which has been given back. -/
theorem stack_text_constructor (hf : R.Faithful) (hn : R.fixed = false → n ≤ R.limit) (w : R.K.W) (v : Nat) (x : SSnap R.K) (t : Nat) :
    Total (ctorProgram R α) (fun _ => True) isSpur t (Life.raw R w v x) n (fun _ => 40 * n + 61) fun s r => s.freed = [] ∧
      (r = true → (⟨s.mem, s.x.v, s.x.ver⟩ : SSt R.K α) = (SConf.initial R n).s ∧ (R.fixed = true → n ≤ 65535)) ∧
      (r = false → if R.fixed then s.mem.nalloc = 0 else s.mem.nalloc < n) := by
  refine (ctor_total hf hn _ trivial w v x t).mono ?_
  rintro s r ⟨h1, ⟨rfl, h2, h3⟩ | ⟨rfl, -, -, h2⟩⟩
  · exact ⟨h1, fun _ => ⟨h2, h3⟩, by simp⟩
  · refine ⟨h1, by simp, fun _ => ?_⟩
    unfold CtorThrew at h2
    split at h2
    · rename_i hfx; rw [if_pos hfx, h2]; rfl
    · rename_i hfx
      obtain ⟨j, h3, h4⟩ := h2
      rw [if_neg hfx, h4, SMem.initial_nalloc]; exact h3

/-- **C59 (stack: the constructor throws for a reason).** If the allocator does not throw, and a fixed-size stack has at most 65535 nodes, the constructor returns. -/
theorem stack_text_constructor_returns (hf : R.Faithful) (hn : R.fixed = false → n ≤ R.limit) (h65 : R.fixed = true → n ≤ 65535) (w : R.K.W) (v : Nat)
    (x : SSnap R.K) (t : Nat) :
    Total (ctorProgram R α) (fun ch => ch ≠ .throw) isSpur t (Life.raw R w v x) n (fun _ => 40 * n + 61) fun s r =>
      r = true ∧ s.freed = [] ∧ (⟨s.mem, s.x.v, s.x.ver⟩ : SSt R.K α) = (SConf.initial R n).s := by
  refine (ctor_total hf hn _ (by simp) w v x t).mono ?_
  rintro s r ⟨h1, ⟨rfl, h2, -⟩ | ⟨rfl, h2 | ⟨h2, h3⟩, -⟩⟩
  · exact ⟨rfl, h1, h2⟩
  · simp at h2
  · have := h65 h2; omega

/-- **C59 (stack: too many nodes).** The constructor of a fixed-size stack of more than 65535 nodes throws, without obtaining memory. -/
theorem stack_text_constructor_too_large (hfx : R.fixed = true) (hn : 65535 < n) (w : R.K.W) (v : Nat) (x : SSnap R.K) (t : Nat) :
    Total (ctorProgram R α) (fun _ => True) isSpur t (Life.raw R w v x) n (fun _ => 40 * n + 61) fun s r => r = false ∧ s.freed = [] ∧ s.mem.nalloc = 0 := by
  refine Total.of_ends (N := fun _ => 40 * n + 60) (fun _ _ _ => rfl) rfl fun f => ?_
  refine .step rfl (.step rfl (.step rfl (.step rfl ?_)))
  refine Ends.mono (n := 10 + 40 * n + 40) ?_ (by omega)
  refine freelistCtor_ends (l := { LifeVars.init R.zero with count := n }) (fun h => absurd (h hfx) (Nat.not_le.2 hn)) trivial (by simp [hfx]) ?_ ?_
  · exact fun h => absurd (h hfx) (Nat.not_le.2 hn)
  · intro hth mem' l' hc hl
    rw [CtorThrew, if_pos hfx] at hc
    exact .step rfl (.here ⟨rfl, rfl, rfl, by rw [hc]; rfl⟩)

end Verif.Stack.Code
