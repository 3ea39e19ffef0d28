import Verif.Queue.Examples

/-!
# Queue: how much memory it takes (C54)
-/

namespace Verif.Queue
open Lin

variable {α : Type} {cfg : Cfg} {s s' : St α} {t : Nat} {n : Nat} {h : History (Op α) (Ret α)} {C : Conf α}

/-- The queue holds at most `L` elements. -/
def AtMost (L : Nat) (s : St α) : Prop := ∀ vs, Holds s vs → vs.length ≤ L

/-- No exceptions from copy constructors in `push`, at most `L` elements at a time. -/
def okSmall (cfg : Cfg) (L : Nat) (s : St α) (p : PC α) (ch : QChoice α) : Prop := okClean cfg s p ch ∧ AtMost L s

/-- The node in the hands of a call. -/
def hand : PC α → List Nat
  | .constr _ _ m | .nload _ _ m | .nstore _ _ m _ | .pTail m | .pNext m _ | .pCheck m _ _ | .pCas m _ _
  | .swing (.retryPush m) _ _ | .cDestroy m _ | .free _ m _ => [m]
  | _ => []

/-- The thread has found the freelist empty and is about to ask the allocator for a node (or to fail). -/
def waits : PC α → Nat
  | .alloc _ _ (.test o) => if o.v.ptr = none then 1 else 0
  | _ => 0

theorem hand_waits (p : PC α) : (hand p).length + waits p ≤ 1 := by
  cases p with
  | alloc b v a => cases a <;> simp [hand, waits]; split <;> simp
  | swing k => cases k <;> simp [hand, waits]
  | _ => simp [hand, waits]

theorem mem_hand {p : PC α} {m} (h : HeldBy p m) : m ∈ hand p := by
  cases p with
  | swing k => cases k <;> simp_all [hand, HeldBy]
  | _ => simp_all [hand, HeldBy]

/-- A step that does not begin to wait asks for memory only after having waited or as a part of `reserve`. -/
theorem step_waits {p p' : PC α} {ch e} (hs : tstep cfg t s p ch = some (s', p', e)) :
    owed p' ≤ owed p + reserveCount e.toList ∧
      (s'.heap.nalloc + waits p' + owed p' ≤ s.heap.nalloc + waits p + owed p + reserveCount e.toList ∨
        s' = s ∧ s.heap.pool.ptr = none) := by
  cases trans_of_tstep hs with
  | @call o p ho =>
    cases o <;> simp [start] at ho
    all_goals first | subst ho | (obtain ⟨_, rfl⟩ := ho)
    all_goals simp [waits, owed, reserveCount]
  | @allocMore b k a ch hp' a' h1 =>
    refine ⟨Nat.zero_le _, ?_⟩
    rcases aStep_nalloc h1 with h2 | ⟨h2, h3, ⟨_, h4⟩, _⟩
    · cases a' with
      | test o =>
        obtain ⟨rfl, rfl⟩ := aStep_to_test h1
        by_cases h3 : s.heap.pool.ptr = none
        · exact .inr ⟨rfl, h3⟩
        · exact .inl (by simp [waits, Heap.poolSnap, h3, owed, reserveCount])
      | _ => exact .inl (by simp [waits, h2, owed, reserveCount])
    · simp at h4
  | @allocGot b k a ch hp' m h1 =>
    refine ⟨Nat.zero_le _, .inl ?_⟩
    rcases aStep_nalloc h1 with h2 | ⟨h2, h3, _, o, rfl, ho⟩
    · simp [waits, h2, owed, reserveCount]
    · simp [waits, h2, ho, owed, reserveCount]
  | @allocNull b k a ch hp' h1 =>
    refine ⟨Nat.zero_le _, .inl ?_⟩
    rcases aStep_nalloc h1 with h2 | ⟨h2, h3, ⟨_, h4⟩, _⟩
    · simp [waits, h2, owed, reserveCount]
    · simp at h4
  | @allocBad b k a ch hp' h1 =>
    refine ⟨Nat.zero_le _, .inl ?_⟩
    rcases aStep_nalloc h1 with h2 | ⟨h2, h3, ⟨_, h4⟩, _⟩
    · simp [waits, h2, owed, reserveCount]
    · simp at h4
  | @freeMore k m d ch hp' d' h1 =>
    have := (dStep_ver h1).2
    cases k <;> simp [waits, this, owed, reserveCount]
  | @freeDone k m d ch hp' h1 =>
    have := (dStep_ver h1).2
    cases k <;> simp [waits, onFreed, this, owed, reserveCount]
  | @pCheck n T N => unfold pBranch; split <;> simp [waits, owed, reserveCount]
  | @cCheck H T N => unfold cBranch; split <;> split <;> simp [waits, owed, reserveCount]
  | @swing k => cases k <;> simp [waits, owed, onSwung, reserveCount]
  | @swingFail k => cases k <;> simp [waits, owed, onSwung, reserveCount]
  | rsv => simp [waits, owed, Heap.malloc, reserveCount]; omega
  | _ => simp [waits, owed, reserveCount, Heap.setData]

/-- The nodes are in the queue, in the freelist, or one per thread. -/
theorem nodes_le {L T : Nat} (hx : MSteps (mach α cfg) (okClean cfg) (Conf.initial cfg n) h C)
    (hi : ∀ t, T ≤ t → C.pc t = .idle) (hL : AtMost L C.s) (h0 : C.s.heap.pool.ptr = none) :
    C.s.heap.nalloc + total waits C T ≤ L + 1 + T := by
  have hx' : FreshExec cfg n h C := hx.mono fun _ _ _ h => h.1
  obtain ⟨g, c, hg, _⟩ := hx'.inv
  have hall : ∀ m ∈ List.range C.s.heap.nalloc, m ∈ g.L ++ (List.range T).flatMap fun t => hand (C.pc t) := by
    intro m hm
    rw [List.mem_append, ← hg.si.mem, ← hg.inQueue]
    rcases queue_no_leak hx (List.mem_range.1 hm) with h | h | ⟨t, h⟩
    · exact .inl h
    · exact absurd h (inFree_of_null h0 m)
    · refine .inr (List.mem_flatMap.2 ⟨t, List.mem_range.2 ?_, mem_hand h⟩)
      by_contra ht
      rw [hi t (by omega)] at h
      exact h
  have h1 := (List.subperm_of_subset List.nodup_range hall).length_le
  rw [List.length_append, List.length_range, flatMap_length, (hg.length_le hg.si.holds).1] at h1
  have h2 := hL _ hg.si.holds
  have h3 := sumTo_add_le (fun t => (hand (C.pc t)).length) (fun t => waits (C.pc t)) T fun t => hand_waits _
  simp only [total]
  omega

theorem footprint_inv {L T : Nat} (hx : MSteps (mach α cfg) (okSmall cfg L) (Conf.initial cfg n) h C) (hT : ∀ e ∈ h, e.tid < T) :
    (∀ t, T ≤ t → C.pc t = .idle) ∧ total owed C T ≤ reserveCount h ∧
      C.s.heap.nalloc + total waits C T + total owed C T ≤ max n (L + T) + 1 + reserveCount h := by
  induction hx with
  | refl =>
    refine ⟨fun _ _ => rfl, ?_⟩
    rw [total_idle waits _ (fun _ => rfl), total_idle owed _ (fun _ => rfl), initial_nalloc]
    omega
  | @step h C t ch s' p' e hx hs hok ih =>
    obtain ⟨ih2, ih3, ih4⟩ := ih fun e he => hT e (List.mem_append_left _ he)
    obtain ⟨h2, h3⟩ := step_waits hs
    have ht : t < T := by
      by_contra ht
      have hs : tstep cfg t C.s (C.pc t) ch = _ := hs
      rw [ih2 t (by omega)] at hs
      rcases ch with ch | _ | _
      · cases ch with
        | call o =>
          simp [tstep] at hs
          obtain ⟨_, -, -, -, rfl⟩ := hs
          exact ht (hT (.inv t o) (List.mem_append_right _ (by simp)))
        | _ => simp [tstep] at hs
      · simp [tstep] at hs
      · simp [tstep] at hs
    have h6 : ∀ u, T ≤ u → upd C.pc t p' u = .idle := fun u hu => by
      have : u ≠ t := by omega
      simpa [this] using ih2 u hu
    have h7 := total_upd waits C p' s' ht
    have h8 := total_upd owed C p' s' ht
    have h9 := le_total waits C ht
    have h10 := le_total owed C ht
    have h11 : total owed ⟨s', upd C.pc t p'⟩ T ≤ reserveCount (h ++ e.toList) := by
      rw [reserveCount_append]; omega
    refine ⟨h6, h11, ?_⟩
    rcases h3 with h3 | ⟨rfl, h4⟩
    · rw [reserveCount_append]
      show s'.heap.nalloc + _ + _ ≤ _
      omega
    · have := nodes_le ((hx.mono fun _ _ _ h => h.1).step hs hok.1) h6 hok.2 h4
      omega

/-- **C54.** Suppose that the calls are made by at most `T` threads, that no copy constructor throws in `push`, and that the
queue never holds more than `L` elements at a time (`okSmall`). Then, however many calls have been made, the nodes requested
from the allocator are at most those of the constructor or `L + T`, whichever is more, the dummy, and those of the `reserve`
calls. -/
theorem queue_footprint {L T : Nat} (hx : MSteps (mach α cfg) (okSmall cfg L) (Conf.initial cfg n) h C)
    (hT : ∀ e ∈ h, e.tid < T) : C.s.heap.nalloc ≤ max n (L + T) + 1 + reserveCount h := by
  have := footprint_inv hx hT
  omega

namespace Ex

/-- `okSmall` with `L = 1`, computed. -/
def okS (s : St Nat) (p : PC Nat) (ch : QChoice Nat) : Bool :=
  okC cfg3 s p ch &&
    match s.head.ptr with
    | none => true
    | some d => match (s.heap.next d).ptr with
      | none => true
      | some m => (s.heap.next m).ptr == none

theorem okS_small (s : St Nat) (p ch) (h : okS s p ch = true) : okSmall cfg3 1 s p ch := by
  simp only [okS, Bool.and_eq_true] at h
  refine ⟨okC_clean _ _ _ h.1, ?_⟩
  rintro vs ⟨d, S, h0, h1, h2⟩
  have h3 := congrArg List.length h2
  simp only [List.length_map] at h3
  have h4 := h.2
  rw [h0] at h4
  simp only at h4
  split at h4
  · rename_i hn
    rw [hn] at h1
    rw [← h3, h1.eq_nil]; simp
  · rename_i m hm
    rw [hm] at h1
    cases S with
    | nil => rw [← h3]; simp
    | cons x l =>
      obtain rfl : m = x := by simpa using h1.1
      have h5 : Chain s.heap.next none l := by simpa [eq_of_beq h4] using h1.2
      rw [← h3, h5.eq_nil]; simp

/-- Thread 0 has removed an element and still has a node in its hands; thread 1 has pushed one and has got a node for another -/
def tight : List (Nat × QChoice Nat) :=
  call 0 (.push false 5) 11 ++ call 0 .pop 6 ++ call 1 (.push false 6) 11 ++ call 1 (.push false 7) 2

/-- C54: two threads, never more than one element, three nodes and the dummy: the bound is reached -/
example : ∃ h C, MSteps (mach Nat cfg3) (okSmall cfg3 1) (Conf.initial cfg3 0) h C ∧ (∀ e ∈ h, e.tid < 2) ∧
    C.s.heap.nalloc = max 0 (1 + 2) + 1 + reserveCount h := by
  obtain ⟨C', h1, h2⟩ := Mach.trace_steps (m := mach Nat cfg3) okS_small (view := fun C => C.s.heap.nalloc)
    (C := Conf.initial cfg3 0) (sched := tight) (v := 4)
    (h := [.inv 0 (.push false 5), .res 0 (.pushed true), .inv 0 .pop, .inv 1 (.push false 6), .res 1 (.pushed true),
      .inv 1 (.push false 7)]) rfl
  exact ⟨_, _, h1, by decide, h2⟩

end Ex

end Verif.Queue
