import Verif.HeapLen
import Verif.CallInv
import Verif.Stack.Pool

/-!
# Stack: reserved nodes are there for later pushes (C38)
-/

namespace Verif.Stack
open Lin

variable {α : Type} {cfg : Cfg} {n : Nat} {h : History (Op α) (Ret α)} {C : Conf α}

/-- The freelist has at least `k` nodes. -/
def FreeAtLeast (s : St α) (k : Nat) : Prop := ∃ F, Chain s.heap.next s.heap.pool.ptr F ∧ k ≤ F.length

/-- Nodes a push in progress may still take. -/
def need : PC α → Nat
  | .alloc _ (.one _) _ => 1
  | .alloc _ (.range _ _ _ rest) _ => rest.length + 1
  | .constr _ (.range _ _ _ rest) _ => rest.length
  | .rlink _ _ _ _ rest _ => rest.length
  | _ => 0

/-- Nodes a `reserve` in progress has still to add. -/
def owe : PC α → Nat
  | .rsv k => k
  | .free (.rsv k) _ _ => k + 1
  | _ => 0

/-- Elements offered by the push calls of a history. -/
def offeredCount (h : History (Op α) (Ret α)) : Nat := (h.map fun e => match e with
  | .inv _ o => (offeredBy o).length
  | .res _ _ => 0).sum

/-- Nodes asked for by the `reserve` calls of a history. -/
def reserveCount (h : History (Op α) (Ret α)) : Nat := (h.map fun e => match e with
  | .inv _ (.reserve k) => k
  | _ => 0).sum

/-- The allocator does not throw in `reserve`. -/
def okRsv (cfg : Cfg) (s : St α) (p : PC α) (ch : Choice (Op α)) : Prop :=
  okFresh cfg s p ch ∧ ∀ k, p = .rsv k → ch ≠ .throw

theorem free_step {g g' : G} {c c' : CState (spec α cfg.fixed)} (hi : GInv cfg C g c) {t ch s' p' e} (w : Bool)
    (hs : tstep cfg t C.s (C.pc t) ch = some (s', p', e)) (hok : okFresh cfg C.s (C.pc t) ch)
    (hw : w = true → ∀ k, C.pc t = .rsv k → ch ≠ .throw)
    (hi' : GInv cfg ⟨s', upd C.pc t p'⟩ g' c') (hg : Guar (leaky (C.pc t) ch) t C.s g s' g') :
    g.F.length + only w (owe (C.pc t)) + need p' + only w (reserveCount e.toList) ≤
      g'.F.length + only w (owe p') + need (C.pc t) + offeredCount e.toList := by
  have hl := hi.loc t
  have hsi := hi.si.heap
  have hsi' := hi'.si.heap
  have hF := hg.pF
  have hle : s'.heap.poolVer = C.s.heap.poolVer → g.F.length ≤ g'.F.length := fun h =>
    length_le_of_subset hsi.fnodup (hF h)
  have hst := trans_of_tstep hs
  clear hs hF hg
  generalize C.pc t = p at hst hl hok hw
  cases hst with
  | @call o p hp =>
    have hle := hle rfl
    unfold start at hp
    split at hp <;> (repeat' split at hp) <;> simp at hp <;> subst hp <;>
      simp_all [need, owe, offeredCount, reserveCount, offeredBy, only] <;> grind
  | @allocMore b k a ch hp a' h1 =>
    have hA : ALocal cfg C.s.heap g.F a := by cases k <;> simp only [Local] at hl <;> simp_all
    have h2 := aStep_inv (t := t) hsi hA hok.1 h1
    have hle := hle (by rw [h2.1])
    cases k <;> simp [need, owe, offeredCount, reserveCount, only] <;> grind
  | @allocGot b k a ch hp m h1 =>
    have hA : ALocal cfg C.s.heap g.F a := by cases k <;> simp only [Local] at hl <;> simp_all
    have hle := aStep_len hsi hA hok.1 h1 hsi'
    cases k <;> simp [need, owe, offeredCount, reserveCount, only] <;> grind
  | @allocNull b k a ch hp h1 =>
    have hA : ALocal cfg C.s.heap g.F a := by cases k <;> simp only [Local] at hl <;> simp_all
    have h2 := aStep_inv (t := t) hsi hA hok.1 h1
    have hle := hle (by rw [h2.1])
    rcases k with _ | ⟨_, _ | _, _, _⟩ <;> simp [need, owe, offeredCount, reserveCount, only, onNull] <;> grind
  | @allocBad b k a ch hp h1 =>
    have hA : ALocal cfg C.s.heap g.F a := by cases k <;> simp only [Local] at hl <;> simp_all
    have h2 := aStep_inv (t := t) hsi hA hok.1 h1
    have hle := hle (by rw [h2.1])
    rcases k with _ | ⟨_, _ | _, _, _⟩ <;> simp [need, owe, offeredCount, reserveCount, only, onThrow] <;> grind
  | @constrThrow b k m =>
    have hle := hle rfl
    rcases k with _ | ⟨_, _ | _, _, _⟩ <;> simp [need, owe, offeredCount, reserveCount, only, onThrow] <;> grind
  | @rlinkFirst b acc v rest m =>
    have hle := hle rfl
    cases rest <;> simp [need, owe, offeredCount, reserveCount, only, onLinked] <;> grind
  | @rlinkNext b acc top e v rest m =>
    have hle := hle rfl
    cases rest <;> simp [need, owe, offeredCount, reserveCount, only, onLinked] <;> grind
  | @freeMore k m d ch hp d' h1 =>
    have hle := hle (dStep_ver h1).1
    cases k <;> simp [need, owe, offeredCount, reserveCount, only] <;> grind
  | @freeDone k m d ch hp h1 =>
    simp only [Local] at hl
    obtain ⟨l', h2, h3, h4, _⟩ := hl
    have hle := dStep_len (t := t) hsi (by rw [h2]; simp) h3 h4 h1 hsi'
    rcases k with _ | ⟨_, _, _ | _⟩ | _ | _ | _ <;>
      simp [need, owe, offeredCount, reserveCount, only, onFreed] <;> grind
  | @ccasOk rev thr o m h1 h2 =>
    have hle := hle rfl
    cases rev <;> simp [need, owe, offeredCount, reserveCount, only] <;> grind
  | rsvThrow =>
    have hle := hle rfl
    cases w
    · simp [need, owe, offeredCount, only] <;> omega
    · exact absurd rfl (hw rfl _ rfl)
  | _ =>
    have hle := hle rfl
    simp [need, owe, offeredCount, reserveCount, only] <;> grind

theorem offeredCount_append (a b : History (Op α) (Ret α)) : offeredCount (a ++ b) = offeredCount a + offeredCount b := by
  simp [offeredCount]

theorem reserveCount_append (a b : History (Op α) (Ret α)) : reserveCount (a ++ b) = reserveCount a + reserveCount b := by
  simp [reserveCount]

theorem free_steps {C₀ : Conf α} {g₀ : G} {c₀ : CState (spec α cfg.fixed)} (hi : GInv cfg C₀ g₀ c₀) (w : Bool)
    (hx : MSteps (mach α cfg) (fun s p ch => okFresh cfg s p ch ∧ (w = true → ∀ k, p = .rsv k → ch ≠ .throw)) C₀ h C) :
    ∃ g c T₁, GInv cfg C g c ∧ ∀ T, T₁ ≤ T →
      g₀.F.length + only w (total owe C₀ T) + total need C T + only w (reserveCount h) ≤
        g.F.length + only w (total owe C T) + total need C₀ T + offeredCount h := by
  induction hx with
  | refl => exact ⟨g₀, c₀, 0, hi, fun T _ => by simp [reserveCount, offeredCount, only]⟩
  | @step h C t ch s' p' e hx hs hok ih =>
    obtain ⟨g, c, T₁, h1, h2⟩ := ih
    obtain ⟨g', c', h3, _, h4, _⟩ := h1.step hs hok.1.1 hok.1.2
    have h5 := free_step h1 w hs hok.1 hok.2 h3 h4
    refine ⟨g', c', max T₁ (t + 1), h3, fun T hT => ?_⟩
    have h6 := h2 T (by omega)
    have h7 := total_upd owe C p' s' (t := t) (T := T) (by omega)
    have h8 := total_upd need C p' s' (t := t) (T := T) (by omega)
    rw [offeredCount_append, reserveCount_append, only_add]
    cases w <;> simp only [only, Bool.false_eq_true, if_false, if_true] at h5 h6 ⊢ <;> omega

/-- **C38 (balance).** Between two moments at which no call is in progress, and whatever the threads do in between — pops
included —, the freelist grows at least by the number of nodes reserved and shrinks at most by the number of elements
offered for pushing. (The allocator does not throw in `reserve`; otherwise `reserve` itself throws.) -/
theorem stack_reserve_balance (hx : FreshExec cfg n h C) (hq : ∀ t, C.pc t = .idle) {h' C'}
    (hs : MSteps (mach α cfg) (okRsv cfg) C h' C') (hq' : ∀ t, C'.pc t = .idle) {k : Nat} (hk : FreeAtLeast C.s k) :
    FreeAtLeast C'.s (k + reserveCount h' - offeredCount h') := by
  obtain ⟨g, c, hi, _⟩ := hx.inv
  obtain ⟨g', c', T, h1, h2⟩ := free_steps hi true (hs.mono fun _ _ _ h => ⟨h.1, fun _ => h.2⟩)
  obtain ⟨F, h3, h4⟩ := hk
  have := h2 T (Nat.le_refl _)
  rw [total_idle need C fun t => by rw [hq t]; rfl, total_idle owe C fun t => by rw [hq t]; rfl,
    total_idle need C' fun t => by rw [hq' t]; rfl, total_idle owe C' fun t => by rw [hq' t]; rfl,
    ← h3.unique hi.si.heap.chain] at this
  refine ⟨g'.F, h1.si.heap.chain, ?_⟩
  simp [only] at this; omega

/-- All that was offered was pushed (unless an exception was thrown). -/
def Full : Op α → Ret α → Prop
  | .push _ _, .pushed ok => ok = true
  | .pushRange _ vs, .count k => k = vs.length
  | _, _ => True

/-- The progress of a call that never found the freelist empty. -/
def Good (o : Op α) : PC α → Prop
  | .alloc _ (.one v) (.test sn) => (∃ b, o = .push b v) ∧ sn.v.ptr ≠ none
  | .alloc _ (.range acc _ v rest) (.test sn) => (∃ b, o = .pushRange b (acc ++ v :: rest)) ∧ sn.v.ptr ≠ none
  | .alloc _ (.one v) _ | .constr _ (.one v) _ => ∃ b, o = .push b v
  | .alloc _ (.range acc _ v rest) _ | .constr _ (.range acc _ v rest) _ | .rlink _ acc _ v rest _ =>
    ∃ b, o = .pushRange b (acc ++ v :: rest)
  | .lload _ _ r | .lset _ _ _ r | .lcas _ _ _ r | .ret r => Full o r
  | _ => True

theorem good_alloc {o : Op α} {b k a a'} (hp : Good o (.alloc b k a))
    (hne : ∀ sn, a' = .test sn → sn.v.ptr ≠ none) : Good o (.alloc b k a') := by
  cases k <;> cases a <;> cases a' <;> simp_all [Good]

theorem good_constr {o : Op α} {b k a n} (hp : Good o (.alloc b k a)) : Good o (.constr b k n) := by
  cases k <;> cases a <;> simp_all [Good]

theorem good_throw {o : Op α} (k : PushK α) : Good o (onThrow k) := by
  rcases k with _ | ⟨_, _ | _, _, _⟩ <;> cases o <;> simp [Good, onThrow, Full]

theorem good_linked {o : Op α} {b acc v rest top e} (hp : ∃ b, o = .pushRange b (acc ++ v :: rest)) :
    Good o (onLinked b (acc ++ [v]) top e rest) := by
  obtain ⟨b', rfl⟩ := hp
  cases rest <;> simp [onLinked, Good, Full]

theorem good_freed {o : Op α} (k : FreeK α) : Good o (onFreed k) := by
  rcases k with _ | ⟨_, _, _ | _⟩ | _ | _ | _ <;> cases o <;> simp [Good, onFreed, Full]

theorem good_step {s s' : St α} {p p' : PC α} {t ch} (hs : tstep cfg t s p ch = some (s', p', none)) {o : Op α}
    (hp : Good o p) (hne : ∀ b k sn, p' = .alloc b k (.test sn) → sn.v.ptr ≠ none)
    (hne' : ∀ b k sn, p = .alloc b k (.test sn) → sn.v.ptr ≠ none) : Good o p' := by
  have hst := trans_of_tstep hs
  cases hst with
  | allocMore h1 => exact good_alloc hp fun sn h => hne _ _ sn (by rw [h])
  | allocGot h1 => exact good_constr hp
  | allocNull h1 =>
    obtain ⟨sn, rfl, h2⟩ := aStep_null h1
    exact absurd h2 (hne' _ _ _ rfl)
  | allocBad h1 => exact good_throw _
  | constrThrow => exact good_throw _
  | constrOne => obtain ⟨b, rfl⟩ := hp; simp [Good, Full]
  | constrRange => exact hp
  | rlinkFirst => exact good_linked hp
  | rlinkNext => exact good_linked hp
  | freeDone => exact good_freed _
  | @ccasOk rev => cases rev <;> simp [Good]
  | lload | lset | lcasOk | lcasFail => exact hp
  | _ => cases o <;> simp [Good, Full]

theorem good_call {o : Op α} {p} (h : start cfg o = some p) (hne : ∀ b, o ≠ .pushRange b []) : Good o p := by
  unfold start at h
  split at h <;> (repeat' split at h) <;> simp at h <;> subst h <;> simp_all [Good]

/-- With enough free nodes no allocation finds the freelist empty. -/
theorem snapshots_nonnull {C₀ : Conf α} {g₀ : G} {c₀ : CState (spec α cfg.fixed)} (hi : GInv cfg C₀ g₀ c₀)
    (hq : ∀ t, C₀.pc t = .idle) (hx : MSteps (mach α cfg) (okFresh cfg) C₀ h C) (hle : offeredCount h ≤ g₀.F.length) :
    ∀ t b k sn, C.pc t = .alloc b k (.test sn) → sn.v.ptr ≠ none := by
  induction hx with
  | refl => intro t b k sn h; rw [hq t] at h; cases h
  | @step h C t ch s' p' e hx hs hok ih =>
    intro t' b k sn h1
    have h2 := offeredCount_append h e.toList
    by_cases ht : t' = t
    · subst ht
      simp only [upd_self] at h1
      subst h1
      obtain ⟨g, c, T₁, h3, h4⟩ := free_steps hi false ((MSteps.step hx hs hok).mono fun _ _ _ h => ⟨h, by simp⟩)
      have h5 := h4 (max T₁ (t' + 1)) (by omega)
      have h6 := le_total need ⟨s', upd C.pc t' (.alloc b k (.test sn))⟩ (t := t') (T := max T₁ (t' + 1)) (by omega)
      rw [total_idle need C₀ fun t => by rw [hq t]; rfl] at h5
      simp only [upd_self] at h6
      have h7 : 1 ≤ need (.alloc b k (.test sn)) := by cases k <;> simp [need]
      simp only [only, Bool.false_eq_true, if_false] at h5
      have h8 : g.F ≠ [] := by intro h8; rw [h8] at h5; simp at h5; omega
      have h9 : sn = s'.heap.poolSnap := by
        have hst := trans_of_tstep hs
        generalize C.pc t' = p at hst
        revert hst
        generalize hp' : PC.alloc b k (.test sn) = p'
        intro hst
        cases hst with
        | allocMore h10 => cases hp'; obtain ⟨rfl, rfl⟩ := aStep_to_test h10; rfl
        | call h10 =>
          exfalso; subst hp'; unfold start at h10
          split at h10 <;> (repeat' split at h10) <;> simp at h10
        | @allocNull _ k => rcases k with _ | ⟨_, _ | _, _, _⟩ <;> cases hp'
        | @allocBad _ k => rcases k with _ | ⟨_, _ | _, _, _⟩ <;> cases hp'
        | @constrThrow _ k => rcases k with _ | ⟨_, _ | _, _, _⟩ <;> cases hp'
        | @rlinkFirst _ _ _ rest => cases rest <;> cases hp'
        | @rlinkNext _ _ _ _ _ rest => cases rest <;> cases hp'
        | @freeDone k => rcases k with _ | ⟨_, _, _ | _⟩ | _ | _ | _ <;> cases hp'
        | @ccasOk rev => cases rev <;> cases hp'
        | _ => cases hp'
      have h10 := h3.si.heap.chain
      rw [h9]
      intro h11
      simp only [Heap.poolSnap] at h11
      simp only [h11] at h10
      exact h8 h10.eq_nil
    · simp only [upd_ne _ _ _ ht] at h1
      exact ih (by omega) _ _ _ _ h1

/-- Nodes a `reserve` in progress may still request. -/
def owed : PC α → Nat
  | .rsv k => k
  | .free (.rsv k) _ _ => k
  | _ => 0

theorem step_owed {s s' : St α} {p p' : PC α} {t ch e} (hs : tstep cfg t s p ch = some (s', p', e))
    (hne : ∀ b k sn, p = .alloc b k (.test sn) → sn.v.ptr ≠ none) :
    s'.heap.nalloc + owed p' ≤ s.heap.nalloc + owed p + reserveCount e.toList := by
  have ha : ∀ {b k a ch hp r}, p = .alloc b k a → aStep (Op := Op α) cfg b s.heap a ch = some (hp, r) →
      hp.nalloc = s.heap.nalloc := by
    intro b k a ch hp r h1 h2
    rcases aStep_nalloc h2 with h | ⟨_, _, _, o, rfl, h3⟩
    · exact h
    · exact absurd h3 (hne _ _ _ h1)
  cases trans_of_tstep hs with
  | @call o p hp =>
    unfold start at hp
    split at hp <;> (repeat' split at hp) <;> simp at hp <;> subst hp <;> simp_all [owed, reserveCount]
  | allocMore h | allocGot h => rw [← ha rfl h]; simp [owed]
  | @allocNull b k a ch hp h => rw [← ha rfl h]; rcases k with _ | ⟨_, _ | _, _, _⟩ <;> simp [owed, onNull]
  | @allocBad b k a ch hp h => rw [← ha rfl h]; rcases k with _ | ⟨_, _ | _, _, _⟩ <;> simp [owed, onThrow]
  | @constrThrow b k => rcases k with _ | ⟨_, _ | _, _, _⟩ <;> simp [owed, onThrow]
  | @rlinkFirst _ _ _ rest => cases rest <;> simp [owed, onLinked, Heap.setNextPtr]
  | @rlinkNext _ _ _ _ _ rest => cases rest <;> simp [owed, onLinked, Heap.setNextPtr]
  | @freeMore k n d ch hp d' h => simp only [(dStep_ver h).2]; cases k <;> simp [owed]
  | @freeDone k n d ch hp h =>
    simp only [(dStep_ver h).2]; rcases k with _ | ⟨_, _, _ | _⟩ | _ | _ | _ <;> simp [owed, onFreed]
  | @ccasOk rev => cases rev <;> simp [owed]
  | rsv => simp [owed, Heap.malloc]; omega
  | _ => simp [owed, Heap.setNextPtr, Heap.setData, Nat.add_assoc]

theorem steps_owed {C₀ : Conf α} {g₀ : G} {c₀ : CState (spec α cfg.fixed)} (hi : GInv cfg C₀ g₀ c₀)
    (hq : ∀ t, C₀.pc t = .idle) (hx : MSteps (mach α cfg) (okFresh cfg) C₀ h C) (hle : offeredCount h ≤ g₀.F.length) :
    ∃ T₁, ∀ T, T₁ ≤ T → C.s.heap.nalloc + total owed C T ≤ C₀.s.heap.nalloc + reserveCount h := by
  induction hx with
  | refl => exact ⟨0, fun T _ => by rw [total_idle owed C₀ fun t => by rw [hq t]; rfl]; simp⟩
  | @step h C t ch s' p' e hx hs hok ih =>
    have h2 := offeredCount_append h e.toList
    obtain ⟨T₁, h3⟩ := ih (by omega)
    have h4 := step_owed hs (snapshots_nonnull hi hq hx (by omega) t)
    refine ⟨max T₁ (t + 1), fun T hT => ?_⟩
    have h5 := h3 T (by omega)
    have h6 := total_upd owed C p' s' (t := t) (T := T) (by omega)
    rw [reserveCount_append]; simp only; omega

/-- **C38 (use).** If no call is in progress and the freelist has `k` nodes, then in every continuation in which at most `k`
elements are offered for pushing — by any threads, bounded or not, in any interleaving — no push fails or stops short, and
pushing requests no memory from the allocator. -/
theorem stack_reserved_push (hx : FreshExec cfg n h C) (hq : ∀ t, C.pc t = .idle) {k : Nat} (hk : FreeAtLeast C.s k) {h' C'}
    (hs : MSteps (mach α cfg) (okFresh cfg) C h' C') (hle : offeredCount h' ≤ k) :
    (∀ i o r, (i, o, r) ∈ calls h' → Full o r) ∧ C'.s.heap.nalloc ≤ C.s.heap.nalloc + reserveCount h' := by
  obtain ⟨g, c, hi, _⟩ := hx.inv
  obtain ⟨F, h3, h4⟩ := hk
  rw [h3.unique hi.si.heap.chain] at h4
  constructor
  · intro i o r hc
    refine hs.calls_inv (lawful cfg) Good ?_ ?_ hc
    · intro h₁ C₁ t ch s' p' o _ hs hok _
      cases trans_of_tstep hs with
      | call hp => exact good_call hp fun b hb => hok.2 b (by rw [hb])
    · intro h₁ C₁ t ch s' p' o hx₁ hs hok hpre hg
      have hle₁ : offeredCount h₁ ≤ g.F.length := by
        obtain ⟨l, rfl⟩ := hpre
        rw [offeredCount_append] at hle; omega
      refine good_step hs hg (fun b k sn h => ?_) (snapshots_nonnull hi hq hx₁ hle₁ t)
      exact snapshots_nonnull hi hq (MSteps.step hx₁ hs hok) (by simpa using hle₁) t b k sn (by simpa using h)
  · obtain ⟨T, h5⟩ := steps_owed hi hq hs (by omega)
    have := h5 T (Nat.le_refl _); omega

theorem GInv.nalloc_mono {C₀ : Conf α} {g₀ : G} {c₀ : CState (spec α cfg.fixed)} (hi : GInv cfg C₀ g₀ c₀)
    (hx : MSteps (mach α cfg) (okFresh cfg) C₀ h C) : ∃ g c, GInv cfg C g c ∧ C₀.s.heap.nalloc ≤ C.s.heap.nalloc := by
  induction hx with
  | refl => exact ⟨_, _, hi, Nat.le_refl _⟩
  | step _ hs hok ih =>
    obtain ⟨g, c, h1, h2⟩ := ih
    obtain ⟨g', c', h3, _, h4, _⟩ := h1.step hs hok.1 hok.2
    exact ⟨g', c', h3, Nat.le_trans h2 h4.nalloc⟩

/-- **C38.** After `reserve(k)` has returned on a stack on which nothing else is going on, at least `k` elements can be pushed,
by any threads, without a failure and without a request to the allocator. -/
theorem stack_reserve (hx : FreshExec cfg n h C) (hq : ∀ t, C.pc t = .idle) {t k h₁ C₁ h₂ C₂}
    (hs₁ : MSteps (mach α cfg) (okRsv cfg) C h₁ C₁) (hq₁ : ∀ t, C₁.pc t = .idle)
    (he : h₁ = [.inv t (.reserve k), .res t .reserved])
    (hs₂ : MSteps (mach α cfg) (okFresh cfg) C₁ h₂ C₂) (hle : offeredCount h₂ ≤ k) (hr : reserveCount h₂ = 0) :
    (∀ i o r, (i, o, r) ∈ calls h₂ → Full o r) ∧ C₂.s.heap.nalloc = C₁.s.heap.nalloc := by
  have h1 := stack_reserve_balance hx hq hs₁ hq₁ (k := 0) (by
    obtain ⟨g, c, hi, _⟩ := hx.inv
    exact ⟨g.F, hi.si.heap.chain, Nat.zero_le _⟩)
  have h2 : reserveCount h₁ = k ∧ offeredCount h₁ = 0 := by
    subst he; simp [reserveCount, offeredCount, offeredBy]
  rw [h2.1, h2.2] at h1
  have hx₁ : FreshExec cfg n (h ++ h₁) C₁ := hx.trans (hs₁.mono fun _ _ _ h => h.1)
  have h3 := stack_reserved_push hx₁ hq₁ (by simpa using h1) hs₂ hle
  refine ⟨h3.1, ?_⟩
  have h4 : C₁.s.heap.nalloc ≤ C₂.s.heap.nalloc := by
    obtain ⟨g, c, hi, _⟩ := hx₁.inv
    obtain ⟨_, _, _, h4⟩ := hi.nalloc_mono hs₂
    exact h4
  have := h3.2; omega

/-! ### C43: capacity of a fixed-size stack -/

theorem GInv.length_eq {g : G} {c : CState (spec α cfg.fixed)} (hi : GInv cfg C g c) {vs : List α}
    (hv : Holds C.s vs) : g.S.length = vs.length := by
  have h1 := hv.unique hi.si.holds
  have h3 := congrArg List.length hi.si.data
  simpa [← h1] using h3

/-- **C43 (upper bound).** In any concurrent execution a stack of fixed size `n` never holds more than `n` elements. -/
theorem stack_fixed_capacity_bound (hf : cfg.fixed = true) (hx : FreshExec cfg n h C) {vs : List α}
    (hv : Holds C.s vs) : vs.length ≤ n := by
  obtain ⟨g, c, hi, _⟩ := hx.inv
  rw [← hi.length_eq hv, ← bounded_push_never_allocates hx.exec fun _ _ _ => .inl hf]
  have := (List.subperm_of_subset hi.si.nodup (fun m hm => List.mem_range.2 (hi.si.heap.lt (n := m) (by
    rw [(hi.si.mem m).2 hm]; simp)))).length_le
  simpa using this

/-- When no call is in progress, every node that does not carry an element is free. -/
theorem quiescent_free (hx : MSteps (mach α cfg) (okClean cfg) (Conf.initial n) h C) (hq : ∀ t, C.pc t = .idle)
    {vs : List α} (hv : Holds C.s vs) : FreeAtLeast C.s (C.s.heap.nalloc - vs.length) := by
  have hx' : FreshExec cfg n h C := hx.mono fun _ _ _ h => h.1
  obtain ⟨g, c, hi, _⟩ := hx'.inv
  refine ⟨g.F, hi.si.heap.chain, ?_⟩
  have hall : ∀ m ∈ List.range C.s.heap.nalloc, m ∈ g.S ++ g.F := by
    intro m hm
    rw [List.mem_append, ← hi.si.mem, ← hi.si.heap.fmem, ← hi.inStack, ← hi.inFree]
    rcases stack_no_leak hx (List.mem_range.1 hm) with h | h | ⟨t, h⟩
    · exact .inl h
    · exact .inr h
    · rw [hq t] at h; exact h.elim
  have := (List.subperm_of_subset List.nodup_range hall).length_le
  rw [List.length_append, List.length_range, hi.length_eq hv] at this
  omega

/-- **C43.** From any configuration of a stack of fixed size `n` (or `capacity<n>`) with no call in progress, reached by any
concurrent use without throwing copy constructors and functors: if `σ` are the elements, then in every continuation that
offers at most `n - σ.length` elements for pushing, by any threads in any interleaving, no push fails. -/
theorem stack_fixed_capacity (hf : cfg.fixed = true) (hx : MSteps (mach α cfg) (okClean cfg) (Conf.initial n) h C)
    (hq : ∀ t, C.pc t = .idle) {σ : List α} (hσ : Holds C.s σ) {h' C'} (hs : MSteps (mach α cfg) (okFresh cfg) C h' C')
    (hle : σ.length + offeredCount h' ≤ n) : ∀ i b v, (i, .push b v, .pushed false) ∉ calls h' := by
  have hx' : FreshExec cfg n h C := hx.mono fun _ _ _ h => h.1
  have h1 := quiescent_free hx hq hσ
  rw [bounded_push_never_allocates hx'.exec fun _ _ _ => .inl hf] at h1
  intro i b v hm
  have := (stack_reserved_push hx' hq h1 hs (by omega)).1 i _ _ hm
  simp [Full] at this

/-- **C43 (exactness).** From such a configuration a push that runs alone fails iff the stack holds `n` elements. -/
theorem stack_fixed_capacity_exact (hf : cfg.fixed = true) (hx : MSteps (mach α cfg) (okClean cfg) (Conf.initial n) h C)
    (hq : ∀ t, C.pc t = .idle) {σ : List α} (hσ : Holds C.s σ) {t : Nat} {b : Bool} {v : α} {ok : Bool} {C' : Conf α}
    (hs : MSteps (mach α cfg) (okFresh cfg) C [.inv t (.push b v), .res t (.pushed ok)] C') :
    ok = false ↔ σ.length = n := by
  have hx' : FreshExec cfg n h C := hx.mono fun _ _ _ h => h.1
  have h1 := stack_fixed_capacity_bound hf hx' hσ
  obtain ⟨_, vs, vs', h2, h3, h4⟩ := stack_solo_call hx' hq hs
  rw [← hσ.unique h2] at h4
  have h5 := stack_fixed_capacity_bound hf (hx'.trans hs) h3
  cases ok with
  | true =>
    simp [specStep] at h4
    rw [h4] at h5
    simp at h5 ⊢; omega
  | false =>
    simp only [true_iff]
    refine Classical.byContradiction fun hne => ?_
    refine stack_fixed_capacity hf hx hq hσ hs (by simp [offeredCount, offeredBy]; omega) 0 b v (mem_calls.2 ⟨⟨t, rfl⟩, 1, ?_⟩)
    exact ⟨t, .push b v, by simp, by omega, by simp, fun k e h1 h2 => by omega⟩

end Verif.Stack
