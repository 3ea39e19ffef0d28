import Verif.NotLin
import Verif.Queue.Safety

/-!
# Queue: what `empty()` says while other threads work (C41)

`empty()` compares two node handles loaded one after the other, without tags (queue.hpp:301-304).
-/

namespace Verif.Queue
open Lin

variable {α : Type} {cfg : Cfg} {n : Nat} {h : History (Op α) (Ret α)} {C : Conf α}

/-- While the queue is empty, `head_` and `tail_` point to the same node. -/
theorem GInv.empty_ptrs {g : G} {c : CState (spec α cfg.fixed)} (hi : GInv cfg C g c) (he : c.st = []) :
    C.s.tail.ptr = C.s.head.ptr ∧ ∃ d, C.s.head.ptr = some d ∧ (C.s.heap.next d).ptr = none := by
  obtain ⟨d, L', h3, h4, h5⟩ := hi.si.head_cons
  have hd := hi.si.data
  rw [he, h3] at hd
  have hL : L' = [] := by simpa using hd
  subst hL
  obtain ⟨A, x, h1, h2⟩ := hi.si.tl
  refine ⟨?_, d, h4, ?_⟩
  · rw [h3] at h2
    rcases h2 with h2 | ⟨y, h2⟩
    · cases A with
      | nil => simp at h2; rw [h1, h4, h2]
      | cons a A => simp at h2
    · have := congrArg List.length h2; simp at this
  · cases hn : (C.s.heap.next d).ptr with
    | none => rfl
    | some y => have := h5.mem_some hn; simp at this

/-- A step between two configurations in which the queue is empty leaves `head_` where it is. -/
theorem GInv.empty_step {g : G} {c : CState (spec α cfg.fixed)} (hi : GInv cfg C g c) (he : c.st = [])
    {t ch s' p' e} (hs : tstep cfg t C.s (C.pc t) ch = some (s', p', e)) (hok : okFresh cfg C.s (C.pc t) ch) :
    s'.head.ptr = C.s.head.ptr := by
  obtain ⟨-, d, h1, h2⟩ := hi.empty_ptrs he
  have hl := hi.loc t
  have hst := trans_of_tstep hs
  generalize hp : C.pc t = p at hst hl hok
  cases hst with
  | @cCas H y v x heq hx' =>
    exfalso
    obtain ⟨_, _, x, hx, hy⟩ := hl
    have hver : C.s.headVer = H.ver :=
      ver_eq_of_fresh hx.1 hok (by rw [← hi.si.htag, ← hx.2.1, heq])
    obtain ⟨_, h3, _⟩ := hy hver.symm
    rw [heq, hx.2.2.1] at h1
    cases h1
    rw [h2] at h3; simp at h3
  | _ => rfl

theorem GInv.holds_cons {g : G} {c : CState (spec α cfg.fixed)} (hi : GInv cfg C g c) (he : c.st ≠ []) :
    ∃ v vs, Holds C.s (v :: vs) := by
  have := hi.si.holds
  cases hc : c.st with
  | nil => exact absurd hc he
  | cons v vs => rw [hc] at this; exact ⟨v, vs, this⟩

/-- What a thread inside `empty()` knows as long as the queue has been empty since its first load. -/
def StillEmpty (t : Nat) (C : Conf α) : Prop :=
  (∃ H, C.pc t = .eTail H ∧ C.s.tail.ptr = H.v.ptr ∧ C.s.head.ptr = H.v.ptr ∧ Holds C.s []) ∨
  ∃ T, C.pc t = .eHead2 T ∧ C.s.tail.ptr = T.v.ptr ∧ C.s.head.ptr = T.v.ptr ∧ Holds C.s []

/-- The program counters of a thread inside `empty()`, with the value true not yet decided. -/
def InEmpty (p : PC α) : Prop := (∃ H, p = .eTail H) ∨ (∃ T, p = .eHead2 T) ∨ p = .ret (.isEmpty false)

/-- The first load of `empty()`. -/
theorem empty_enter {t ch s' p' e} (hx : FreshExec cfg n h C)
    (hs : (mach α cfg).step t C.s (C.pc t) ch = some (s', p', e)) (hok : okFresh cfg C.s (C.pc t) ch)
    (hnE : ¬ InEmpty (C.pc t)) (hE : InEmpty p') :
    C.pc t ≠ (mach α cfg).idle ∧
      ((∃ v vs, Holds s' (v :: vs)) ∨ StillEmpty t ⟨s', upd C.pc t p'⟩) := by
  unfold InEmpty at hnE hE
  obtain ⟨g, c, hi, _⟩ := FreshExec.inv hx
  obtain ⟨g', c', hi', _⟩ := hi.step hs hok
  have hst := trans_of_tstep (show tstep cfg t C.s (C.pc t) ch = _ from hs)
  have hne : C.pc t ≠ .idle := by
    intro h0
    rw [h0] at hst
    cases hst with
    | call h => unfold start at h; split at h <;> (repeat' split at h) <;> simp at h <;> subst h <;> simp at hE
  refine ⟨hne, ?_⟩
  by_cases he : c'.st = []
  · obtain ⟨h1, _⟩ := hi'.empty_ptrs he
    have h3 := hi'.si.holds
    rw [he] at h3
    refine .inr ?_
    simp only at h1 h3
    unfold StillEmpty
    simp only [upd_self]
    generalize C.pc t = p at hst hnE
    clear hs hok
    cases hst with
    | eHead => exact .inl ⟨_, rfl, by simp [St.headSnap, h1], by simp [St.headSnap], h3⟩
    | eHead' => exact .inr ⟨_, rfl, by simp [St.tailSnap], by simp [St.tailSnap, h1], h3⟩
    | eTail | eHead2 => exact absurd (by simp) hnE
    | call h => unfold start at h; split at h <;> (repeat' split at h) <;> simp at h <;> subst h <;> simp at hE
    | @pCheck n T N => unfold pBranch at hE; split at hE <;> simp at hE
    | @cCheck H T N => unfold cBranch at hE; (repeat' split at hE) <;> simp at hE
    | @swing k T y => cases k <;> simp [onSwung] at hE
    | @swingFail k T y => cases k <;> simp [onSwung] at hE
    | @freeDone k n d ch h h1 => cases k <;> simp [onFreed] at hE
    | ret => simp at hE
    | _ => simp at hE
  · exact .inl (hi'.holds_cons he)

/-- The later steps of all threads, up to the second load. -/
theorem empty_keep {t t' ch s' p' e} (hx : FreshExec cfg n h C)
    (hs : (mach α cfg).step t' C.s (C.pc t') ch = some (s', p', e)) (hok : okFresh cfg C.s (C.pc t') ch)
    (hJ : StillEmpty t C) (hE : InEmpty (upd C.pc t' p' t)) :
    (∃ v vs, Holds s' (v :: vs)) ∨ StillEmpty t ⟨s', upd C.pc t' p'⟩ := by
  unfold InEmpty at hE
  obtain ⟨g, c, hi, _⟩ := FreshExec.inv hx
  obtain ⟨g', c', hi', _⟩ := hi.step hs hok
  by_cases he : c'.st = []
  · right
    have hce : c.st = [] := by
      have h3 := hi.si.holds
      rcases hJ with ⟨_, _, _, _, h⟩ | ⟨_, _, _, _, h⟩ <;> exact h3.unique h
    have hhd := hi.empty_step hce hs hok
    obtain ⟨h1, _⟩ := hi'.empty_ptrs he
    have h3 := hi'.si.holds
    rw [he] at h3
    simp only at h1 h3
    unfold StillEmpty at hJ ⊢
    by_cases ht : t' = t
    · subst ht
      exfalso
      have hst := trans_of_tstep (show tstep cfg t' C.s (C.pc t') ch = _ from hs)
      simp only [upd_self] at hE
      rcases hJ with ⟨H, g1, g2, g3, _⟩ | ⟨T, g1, g2, g3, _⟩ <;> rw [g1] at hst
      · cases hst with
        | eTail => simp [g2] at hE
      · cases hst with
        | eHead2 => simp [g3] at hE
    · simp only [upd_ne _ _ _ (Ne.symm ht)]
      rcases hJ with ⟨H, g1, g2, g3, _⟩ | ⟨T, g1, g2, g3, _⟩
      · exact .inl ⟨H, g1, by rw [h1, hhd, g3], by rw [hhd, g3], h3⟩
      · exact .inr ⟨T, g1, by rw [h1, hhd, g3], by rw [hhd, g3], h3⟩
  · exact .inl (hi'.holds_cons he)

/-- **C41.** If `empty()` returns false, there was an instant between its call and its return at which the queue was
not empty; in whichever order the two loads are made. -/
theorem queue_empty_false_truthful (hx : FreshExec cfg n h C) {i j} (hr : Returned h i j (.isEmpty false)) :
    ∃ k C₁ v vs, i < k ∧ k ≤ j ∧ FreshExec cfg n (h.take k) C₁ ∧
      MSteps (mach α cfg) (okFresh cfg) C₁ (h.drop k) C ∧ Holds C₁.s (v :: vs) := by
  have key := hx.moment_of (lawful cfg) (i := i) (j := j) (r := .isEmpty false)
    (fun _ C => ∃ v vs, Holds C.s (v :: vs)) (fun h C t hx hp => ?_) hr
  · obtain ⟨t, o, k, C₁, _, h1, h2, h3, h4, v, vs, h5⟩ := key
    exact ⟨k, C₁, v, vs, h1, h2, h3, h4, h5⟩
  · have key : StillEmpty t C ∨ _ := hx.track (lawful cfg) (t := t)
      InEmpty (StillEmpty t)
      (fun C => ∃ v vs, Holds C.s (v :: vs)) (by simp [mach, InEmpty]) (by simp [Conf.initial, InEmpty])
      (fun h C ch s' p' e hx hs hok hnE hE => empty_enter hx hs hok hnE hE)
      (fun h C t' ch s' p' e hx hs hok _ hJ hE => empty_keep hx hs hok hJ hE)
      (by simp [hp, mach, InEmpty])
    rcases key with h1 | h1
    · rcases h1 with ⟨H, h1, _⟩ | ⟨T, h1, _⟩ <;> rw [hp] at h1 <;> simp [mach] at h1
    · exact h1

/-! ### Negative part: `empty()` may return true although the queue is never empty during the call -/

/-- The sequential queue with an exact `empty()`. -/
def exactStep (fixed : Bool) (σ : List α) (o : Op α) (r : Ret α) (σ' : List α) : Prop :=
  specStep fixed σ o r σ' ∧ ∀ b, r = .isEmpty b → (b = true ↔ σ = [])

def exactSpec (α : Type) (fixed : Bool) : Lin.Spec (Op α) (Ret α) where
  State := List α
  init := []
  step := exactStep fixed

/-- Steps without complete tag wrap, computably. -/
def okFreshB (cfg : Cfg) (s : St α) (p : PC α) (_ : QChoice α) : Bool :=
  match p with
  | .alloc _ _ (.cas o _) => cfg.M == 0 || decide (s.heap.poolVer < o.ver + cfg.M)
  | .pCheck _ T _ | .swing _ T _ => cfg.M == 0 || decide (s.tailVer < T.ver + cfg.M)
  | .pCas _ T N => match T.v.ptr with
    | none => true
    | some x => cfg.M == 0 || decide (s.heap.nver x < N.ver + cfg.M)
  | .cCheck H _ _ | .cCas H _ _ => cfg.M == 0 || decide (s.headVer < H.ver + cfg.M)
  | _ => true

theorem okFreshB_spec (s : St α) (p : PC α) (ch : QChoice α) (h : okFreshB cfg s p ch = true) :
    okFresh cfg s p ch := by
  unfold okFresh
  cases p with
  | alloc b v a => cases a <;> simp_all [okFreshB, fresh, aFresh]
  | pCas n T N =>
    intro x hx
    simp_all [okFreshB]
  | _ => simp_all [okFreshB, fresh]

/-- `k` normal steps of thread `t`. -/
def gos (t k : Nat) : List (Nat × QChoice α) := List.replicate k (t, .base .go)

/-- A whole push by one thread without interference: 12 steps after the call. -/
def pushSched (t : Nat) (v : α) : List (Nat × QChoice α) := (t, .base (.call (.push false v))) :: gos t 12

/-- A whole pop of an element by one thread without interference: 11 steps after the call. -/
def popSched (t : Nat) : List (Nat × QChoice α) := (t, .base (.call .pop)) :: gos t 11

/-- Thread 0 pushes 1 and 2. Thread 1 calls `empty()` and loads `head_`. Thread 0 pops 1, which frees the dummy node,
and pushes 3, which reuses that node as the last one. Thread 1 loads `tail_`. -/
def emptySched : List (Nat × QChoice Nat) :=
  pushSched 0 1 ++ pushSched 0 2 ++ [(1, .base (.call .empty))] ++ gos 1 1 ++ popSched 0 ++ pushSched 0 3 ++ gos 1 2

def emptyHistory : History (Op Nat) (Ret Nat) :=
  [.inv 0 (.push false 1), .res 0 (.pushed true), .inv 0 (.push false 2), .res 0 (.pushed true), .inv 1 .empty,
   .inv 0 .pop, .res 0 (.popped (some 1)), .inv 0 (.push false 3), .res 0 (.pushed true), .res 1 (.isEmpty true)]

def cfg16 : Cfg := ⟨65536, true⟩

def exactNext (σ : List Nat) : Op Nat → Ret Nat → Option (List Nat)
  | .push _ v, .pushed true => some (σ ++ [v])
  | .push _ _, _ => some σ
  | .pop, .popped (some _) => σ.tail?
  | .pop, _ => some σ
  | .empty, .isEmpty b => if b == σ.isEmpty then some σ else none
  | _, _ => some σ

theorem exactNext_spec (fixed : Bool) (σ : List Nat) (o r) (σ' : List Nat)
    (hs : (exactSpec Nat fixed).step σ o r σ') : exactNext σ o r = some σ' := by
  obtain ⟨h1, h2⟩ := (show exactStep fixed σ o r σ' from hs)
  cases o <;> cases r <;> simp_all [specStep, exactNext]
  · rename_i b v ok
    cases ok <;> simp_all
  · rename_i v
    cases v <;> simp_all
  · rename_i b
    cases σ <;> simp_all

/-- **C41, negative part.** On a queue with 16-bit tags and room for two elements, `empty()` returns true although
at every instant during the call the queue holds an element; the history is not linearizable if `empty()` is to be
exact. (It is linearizable for the specification which leaves `empty()` open: `queue_linearizable`.) -/
theorem queue_empty_true_unreliable :
    ∃ C, FreshExec cfg16 2 emptyHistory C ∧ ¬ Linearizable (exactSpec Nat true) emptyHistory := by
  have ht : (mach Nat cfg16).trace (okFreshB cfg16) (fun _ => ()) (Conf.initial cfg16 2) emptySched =
      some ((), emptyHistory) := by rfl
  obtain ⟨C, h1, -⟩ := Mach.trace_steps okFreshB_spec ht
  exact ⟨C, h1, not_linearizable exactNext (exactNext_spec true) (by rfl)⟩

end Verif.Queue
