import Verif.Stack.Examples

/-!
# Stack: how much memory it takes (C54)
-/

namespace Verif.Stack
open Lin

variable {α : Type} {cfg : Cfg} {s s' : St α} {t : Nat} {n : Nat} {h : History (Op α) (Ret α)} {C : Conf α}

/-- The calls that handle at most one element. -/
def single : Op α → Bool
  | .push _ _ | .pop _ | .empty | .reserve _ => true
  | _ => false

/-- The stack holds at most `L` elements. -/
def AtMost (L : Nat) (s : St α) : Prop := ∀ vs, Holds s vs → vs.length ≤ L

/-- Only calls that handle one element, no exceptions from user code, at most `L` elements at a time. -/
def okSmall (cfg : Cfg) (L : Nat) (s : St α) (p : PC α) (ch : Choice (Op α)) : Prop :=
  okClean cfg s p ch ∧ (∀ o, ch = .call o → single o = true) ∧ AtMost L s

/-- The places of such calls. -/
def Single : PC α → Prop
  | .idle | .ret _ | .err | .pload _ | .ptest _ _ | .pcas _ _ _ | .papply _ _ | .pdestroy _ _ | .eload | .rsv _ => True
  | .alloc _ (.one _) _ | .constr _ (.one _) _ => True
  | .lload top e _ | .lset top e _ _ | .lcas top e _ _ => top = e
  | .free (.pop _) _ _ | .free (.rsv _) _ _ => True
  | _ => False

/-- The node in the hands of such a call. -/
def hand : PC α → List Nat
  | .constr _ _ n | .lload n _ _ | .lset n _ _ _ | .lcas n _ _ _ | .papply _ n | .pdestroy n _ | .free _ n _ => [n]
  | _ => []

/-- The thread has found the freelist empty and is about to ask the allocator for a node (or to fail). -/
def waits : PC α → Nat
  | .alloc _ _ (.test o) => if o.v.ptr = none then 1 else 0
  | _ => 0

theorem hand_waits (p : PC α) : (hand p).length + waits p ≤ 1 := by
  cases p <;> simp [hand, waits]
  rename_i a
  cases a <;> simp
  split <;> simp

theorem mem_hand {hp : Heap α} {p : PC α} {m} (h1 : Single p) (h2 : HeldBy hp p m) : m ∈ hand p := by
  have path : ∀ {top : Nat}, OnPath hp top top m → m = top := by
    rintro top ⟨l, q, h3, h4, h5, h6⟩
    cases l with
    | nil => simp at h6
    | cons x l =>
      obtain rfl : top = x := by simpa [Seg, eq_comm] using h3.1
      cases l with
      | nil => simpa using h6
      | cons y l =>
        rw [List.getLast?_cons_cons] at h5
        have := List.mem_of_getLast? h5
        exact absurd this (List.nodup_cons.1 h4).1
  cases p with
  | alloc b k a => cases k <;> simp [Single, HeldBy] at h1 h2
  | constr b k x => cases k <;> simp [Single, HeldBy] at h1 h2; simp [hand, h2]
  | lload top e r => cases h1; simp [hand, path h2]
  | lset top e o r => cases h1; simp [hand, path h2]
  | lcas top e o r => cases h1; simp [hand, path h2]
  | free k x d => cases k <;> simp [Single, HeldBy] at h1 h2 <;> simp [hand, h2]
  | papply => simpa [hand, HeldBy] using h2
  | pdestroy => simpa [hand, HeldBy] using h2
  | idle => exact h2.elim
  | ret => exact h2.elim
  | err => exact h2.elim
  | pload => exact h2.elim
  | ptest => exact h2.elim
  | pcas => exact h2.elim
  | eload => exact h2.elim
  | rsv => exact h2.elim
  | _ => exact h1.elim

/-- A step keeps to the places of such calls; if it does not begin to wait, then it asks for memory only after having waited or
as a part of `reserve`. -/
theorem step_single {p p' : PC α} {ch e} (hs : tstep cfg t s p ch = some (s', p', e)) (hp : Single p)
    (hc : ∀ o, ch = .call o → single o = true) :
    Single p' ∧ owed p' ≤ owed p + reserveCount e.toList ∧
      (s'.heap.nalloc + waits p' + owed p' ≤ s.heap.nalloc + waits p + owed p + reserveCount e.toList ∨
        s' = s ∧ s.heap.pool.ptr = none) := by
  cases trans_of_tstep hs with
  | @call o p ho =>
    have := hc o rfl
    cases o <;> simp [single] at this <;> simp [start] at ho
    all_goals first | subst ho | (obtain ⟨_, rfl⟩ := ho)
    all_goals simp [Single, waits, owed, reserveCount]
  | @allocMore b k a ch hp' a' h1 =>
    cases k with
    | range => exact hp.elim
    | one v =>
    refine ⟨trivial, Nat.zero_le _, ?_⟩
    rcases aStep_nalloc h1 with h2 | ⟨h2, h3, ⟨_, h4⟩, _⟩
    · cases a' with
      | test o =>
        obtain ⟨rfl, rfl⟩ := aStep_to_test h1
        by_cases h3 : s.heap.pool.ptr = none
        · exact .inr ⟨rfl, h3⟩
        · exact .inl (by simp [waits, Heap.poolSnap, h3, owed, reserveCount])
      | _ => exact .inl (by simp [waits, h2, owed, reserveCount])
    · simp at h4
  | @allocGot b k a ch hp' m h1 =>
    cases k with
    | range => exact hp.elim
    | one v =>
    refine ⟨trivial, Nat.zero_le _, .inl ?_⟩
    rcases aStep_nalloc h1 with h2 | ⟨h2, h3, _, o, rfl, ho⟩
    · simp [waits, h2, owed, reserveCount]
    · simp [waits, h2, ho, owed, reserveCount]
  | @allocNull b k a ch hp' h1 =>
    cases k with
    | range => exact hp.elim
    | one v =>
    refine ⟨trivial, Nat.zero_le _, .inl ?_⟩
    rcases aStep_nalloc h1 with h2 | ⟨h2, h3, ⟨_, h4⟩, _⟩
    · simp [waits, onNull, h2, owed, reserveCount]
    · simp at h4
  | @allocBad b k a ch hp' h1 =>
    cases k with
    | range => exact hp.elim
    | one v =>
    refine ⟨trivial, Nat.zero_le _, .inl ?_⟩
    rcases aStep_nalloc h1 with h2 | ⟨h2, h3, ⟨_, h4⟩, _⟩
    · simp [waits, onThrow, h2, owed, reserveCount]
    · simp at h4
  | @constrThrow b k m =>
    cases k with
    | range => exact hp.elim
    | one v => simp [onThrow, Single, waits, owed, reserveCount]
  | @freeMore k m d ch hp' d' h1 =>
    have := (dStep_ver h1).2
    cases k <;> simp [Single] at hp <;> simp [Single, waits, this, owed, reserveCount]
  | @freeDone k m d ch hp' h1 =>
    have := (dStep_ver h1).2
    cases k <;> simp [Single] at hp <;> simp [Single, waits, onFreed, this, owed, reserveCount]
  | constrErr => simp [Single, waits, owed, reserveCount]
  | constrOne => simp [Single, waits, Heap.setData, owed, reserveCount]
  | lload => exact ⟨hp, Nat.zero_le _, .inl (by simp [waits, owed, reserveCount])⟩
  | lset => exact ⟨hp, Nat.zero_le _, .inl (by simp [waits, Heap.setNextPtr, owed, reserveCount])⟩
  | lcasFail => exact ⟨hp, Nat.zero_le _, .inl (by simp [waits, owed, reserveCount])⟩
  | pdestroy => simp [Single, waits, Heap.setData, owed, reserveCount]
  | rsv => simp [Single, waits, owed, Heap.malloc]; omega
  | lcasOk | pload | ptestNull | ptestSome | ptestRacy | pcasOk | pcasFail | papplyErr | papplyThrow | papply | pdestroyErr | eload
  | rsvDone | rsvThrow | ret =>
    simp [Single, waits, owed, reserveCount]
  | _ => exact hp.elim

/-- The nodes are in the stack, in the freelist, or one per thread. -/
theorem nodes_le {L T : Nat} (hx : MSteps (mach α cfg) (okClean cfg) (Conf.initial n) h C) (hp : ∀ t, Single (C.pc t))
    (hi : ∀ t, T ≤ t → C.pc t = .idle) (hL : AtMost L C.s) (h0 : C.s.heap.pool.ptr = none) :
    C.s.heap.nalloc + total waits C T ≤ L + T := by
  have hx' : FreshExec cfg n h C := hx.mono fun _ _ _ h => h.1
  obtain ⟨g, c, hg, _⟩ := hx'.inv
  have hall : ∀ m ∈ List.range C.s.heap.nalloc, m ∈ g.S ++ (List.range T).flatMap fun t => hand (C.pc t) := by
    intro m hm
    rw [List.mem_append, ← hg.si.mem, ← hg.inStack]
    rcases stack_no_leak hx (List.mem_range.1 hm) with h | h | ⟨t, h⟩
    · exact .inl h
    · exact absurd h (inFree_of_null h0 m)
    · refine .inr (List.mem_flatMap.2 ⟨t, List.mem_range.2 ?_, mem_hand (hp t) h⟩)
      by_contra ht
      rw [hi t (by omega)] at h
      exact h
  have h1 := (List.subperm_of_subset List.nodup_range hall).length_le
  rw [List.length_append, List.length_range, flatMap_length, hg.length_eq hg.si.holds] at h1
  have h2 := hL _ hg.si.holds
  have h3 := sumTo_add_le (fun t => (hand (C.pc t)).length) (fun t => waits (C.pc t)) T fun t => hand_waits _
  simp only [total]
  omega

theorem footprint_inv {L T : Nat} (hx : MSteps (mach α cfg) (okSmall cfg L) (Conf.initial n) h C) (hT : ∀ e ∈ h, e.tid < T) :
    (∀ t, Single (C.pc t)) ∧ (∀ t, T ≤ t → C.pc t = .idle) ∧ total owed C T ≤ reserveCount h ∧
      C.s.heap.nalloc + total waits C T + total owed C T ≤ max n (L + T) + reserveCount h := by
  induction hx with
  | refl =>
    refine ⟨fun _ => trivial, fun _ _ => rfl, ?_⟩
    rw [total_idle waits _ (fun _ => rfl), total_idle owed _ (fun _ => rfl)]
    simp [Conf.initial, Heap.initial, Heap.addNodes_nalloc, Heap.empty]
    omega
  | @step h C t ch s' p' e hx hs hok ih =>
    obtain ⟨ih1, ih2, ih3, ih4⟩ := ih fun e he => hT e (List.mem_append_left _ he)
    obtain ⟨h1, h2, h3⟩ := step_single hs (ih1 t) hok.2.1
    have ht : t < T := by
      by_contra ht
      have hs : tstep cfg t C.s (C.pc t) ch = _ := hs
      rw [ih2 t (by omega)] at hs
      cases ch with
      | call o =>
        simp [tstep] at hs
        obtain ⟨-, -, rfl⟩ := hs
        exact ht (hT (.inv t o) (List.mem_append_right _ (by simp)))
      | _ => simp [tstep] at hs
    have h5 : ∀ u, Single (upd C.pc t p' u) := fun u => by
      by_cases hut : u = t
      · subst hut; simpa using h1
      · simpa [hut] using ih1 u
    have h6 : ∀ u, T ≤ u → upd C.pc t p' u = .idle := fun u hu => by
      have : u ≠ t := by omega
      simpa [this] using ih2 u hu
    have h7 := total_upd waits C p' s' ht
    have h8 := total_upd owed C p' s' ht
    have h9 := le_total waits C ht
    have h10 := le_total owed C ht
    have h11 : total owed ⟨s', upd C.pc t p'⟩ T ≤ reserveCount (h ++ e.toList) := by
      rw [reserveCount_append]; omega
    refine ⟨h5, h6, h11, ?_⟩
    rcases h3 with h3 | ⟨rfl, h4⟩
    · rw [reserveCount_append]
      show s'.heap.nalloc + _ + _ ≤ _
      omega
    · have := nodes_le ((hx.mono fun _ _ _ h => h.1).step hs hok.1) h5 h6 hok.2.2 h4
      omega

/-- **C54.** Suppose that the calls are `push`, `pop`, `empty` and `reserve`, made by at most `T` threads, that no copy
constructor throws, and that the stack never holds more than `L` elements at a time (`okSmall`). Then, however many calls have
been made, the nodes requested from the allocator are at most those of the constructor or `L + T`, whichever is more, and those
of the `reserve` calls. -/
theorem stack_footprint {L T : Nat} (hx : MSteps (mach α cfg) (okSmall cfg L) (Conf.initial n) h C) (hT : ∀ e ∈ h, e.tid < T) :
    C.s.heap.nalloc ≤ max n (L + T) + reserveCount h := by
  have := footprint_inv hx hT
  omega

namespace Ex

/-- `okSmall` with `L = 1`, computed. -/
def okS (s : St Nat) (p : PC Nat) (ch : Choice (Op Nat)) : Bool :=
  okC ⟨2, false⟩ s p ch && (match ch with | .call o => single o | _ => true) &&
    match s.tos.ptr with
    | none => true
    | some m => (s.heap.next m).ptr == none

theorem okS_small (s : St Nat) (p ch) (h : okS s p ch = true) : okSmall ⟨2, false⟩ 1 s p ch := by
  simp only [okS, Bool.and_eq_true] at h
  refine ⟨okC_clean _ _ _ h.1.1, ?_, ?_⟩
  · rintro o rfl; simpa using h.1.2
  · rintro vs ⟨S, h1, h2⟩
    have h3 := congrArg List.length h2
    simp only [List.length_map] at h3
    have h4 := h.2
    split at h4
    · rename_i hn
      rw [hn] at h1
      rw [← h3, h1.eq_nil]; simp
    · rename_i m hm
      rw [hm] at h1
      cases S with
      | nil => rw [← h3]; simp
      | cons x l =>
        obtain rfl : m = x := by simpa using h1.1
        have h5 : Chain s.heap.next none l := by simpa [eq_of_beq h4] using h1.2
        rw [← h3, h5.eq_nil]; simp

/-- Thread 0 has removed an element and still has its node in its hands; thread 1 has pushed one and has got a node for another -/
def tight : List (Nat × Choice (Op Nat)) :=
  call 0 (.push false 5) 7 ++ call 0 (.pop false) 3 ++ call 1 (.push false 6) 7 ++ call 1 (.push false 7) 2

/-- C54: two threads, never more than one element, three nodes: the bound is reached -/
example : ∃ h C, MSteps (mach Nat ⟨2, false⟩) (okSmall ⟨2, false⟩ 1) (Conf.initial 0) h C ∧ (∀ e ∈ h, e.tid < 2) ∧
    C.s.heap.nalloc = max 0 (1 + 2) + reserveCount h := by
  obtain ⟨C', h1, h2⟩ := Mach.trace_steps (m := mach Nat ⟨2, false⟩) okS_small (view := fun C => C.s.heap.nalloc)
    (C := Conf.initial 0) (sched := tight) (v := 3)
    (h := [.inv 0 (.push false 5), .res 0 (.pushed true), .inv 0 (.pop false), .inv 1 (.push false 6), .res 1 (.pushed true),
      .inv 1 (.push false 7)]) rfl
  exact ⟨_, _, h1, by decide, h2⟩

end Ex

end Verif.Stack
