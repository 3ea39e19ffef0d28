import Verif.HeapInv
import Verif.HeapObs
import Verif.Calls
import Verif.Alone

/-!
# Counting steps: lock-freedom and solo termination (generic)

No code of /repo is modelled here.
-/

namespace Verif
open Lin

variable {S P Ch O R : Type}

/-- `Counted m ok spur T C₀ h C k f`: an execution from `C₀` to `C` by threads below `T` with history `h` that consists of `f`
steps which are spurious failures (`spur`) and `k` other steps. -/
inductive Counted (m : Mach S P Ch O R) (ok : S → P → Ch → Prop) (spur : P → Ch → Bool) (T : Nat) (C₀ : MConf S P) :
    History O R → MConf S P → Nat → Nat → Prop where
  | refl : Counted m ok spur T C₀ [] C₀ 0 0
  | step {h C t ch s' p' e k f} : Counted m ok spur T C₀ h C k f → t < T → m.step t C.s (C.pc t) ch = some (s', p', e) →
      ok C.s (C.pc t) ch → spur (C.pc t) ch = false →
      Counted m ok spur T C₀ (h ++ e.toList) ⟨s', upd C.pc t p'⟩ (k + 1) f
  | fail {h C t ch s' p' e k f} : Counted m ok spur T C₀ h C k f → t < T → m.step t C.s (C.pc t) ch = some (s', p', e) →
      ok C.s (C.pc t) ch → spur (C.pc t) ch = true →
      Counted m ok spur T C₀ (h ++ e.toList) ⟨s', upd C.pc t p'⟩ k (f + 1)

variable {m : Mach S P Ch O R} {ok : S → P → Ch → Prop} {spur : P → Ch → Bool} {T : Nat} {C₀ C : MConf S P}
  {h : History O R} {k f : Nat}

theorem Counted.steps (hx : Counted m ok spur T C₀ h C k f) : MSteps m ok C₀ h C := by
  induction hx with
  | refl => exact .refl _
  | step _ _ hs hok _ ih => exact .step ih hs hok
  | fail _ _ hs hok _ ih => exact .step ih hs hok

/-- Every execution of finitely many threads can be counted. -/
theorem MSteps.counted (hlt : ∀ t s p ch s' p' e, m.step t s p ch = some (s', p', e) → ok s p ch → t < T)
    (hx : MSteps m ok C₀ h C) : ∃ k f, Counted m ok spur T C₀ h C k f := by
  induction hx with
  | refl => exact ⟨0, 0, .refl⟩
  | @step h C t ch s' p' e _ hs hok ih =>
    obtain ⟨k, f, ih⟩ := ih
    cases hsp : spur (C.pc t) ch with
    | true => exact ⟨k, f + 1, .fail ih (hlt _ _ _ _ _ _ _ hs hok) hs hok hsp⟩
    | false => exact ⟨k + 1, f, .step ih (hlt _ _ _ _ _ _ _ hs hok) hs hok hsp⟩

/-- Total of `cost` over the calls made in a history. -/
def callCosts (cost : O → Nat) : History O R → Nat
  | [] => 0
  | .inv _ o :: h => cost o + callCosts cost h
  | .res _ _ :: h => callCosts cost h

theorem callCosts_append (cost : O → Nat) (h h' : History O R) :
    callCosts cost (h ++ h') = callCosts cost h + callCosts cost h' := by
  induction h with
  | nil => simp [callCosts]
  | cons e h ih => cases e <;> simp [callCosts, ih, Nat.add_assoc]

/-- If a potential pays one for every step and is only raised by calls, and by spurious failures by at most `c`, then it bounds
the number of steps. -/
theorem Counted.bound (Φ : MConf S P → Nat) (cost : O → Nat) (c : Nat)
    (hstep : ∀ h C t ch s' p' e, MSteps m ok C₀ h C → t < T → m.step t C.s (C.pc t) ch = some (s', p', e) →
      ok C.s (C.pc t) ch → spur (C.pc t) ch = false →
      Φ ⟨s', upd C.pc t p'⟩ + 1 ≤ Φ C + callCosts cost e.toList)
    (hfail : ∀ h C t ch s' p' e, MSteps m ok C₀ h C → t < T → m.step t C.s (C.pc t) ch = some (s', p', e) →
      ok C.s (C.pc t) ch → spur (C.pc t) ch = true → Φ ⟨s', upd C.pc t p'⟩ ≤ Φ C + callCosts cost e.toList + c)
    (hx : Counted m ok spur T C₀ h C k f) : k + Φ C ≤ Φ C₀ + callCosts cost h + c * f := by
  induction hx with
  | refl => simp
  | step hx ht hs hok hsp ih =>
    have := hstep _ _ _ _ _ _ _ hx.steps ht hs hok hsp
    rw [callCosts_append]; omega
  | fail hx ht hs hok hsp ih =>
    have := hfail _ _ _ _ _ _ _ hx.steps ht hs hok hsp
    rw [callCosts_append, Nat.mul_add, Nat.mul_one]; omega

/-- The step of one thread within a sum over all threads: what it pays covers what the others' parts rise by. -/
theorem sumTo_pay {f f' : Nat → Nat} {t a x c : Nat} (hown : f' t + a ≤ f t + x) (hoth : ∀ u, u ≠ t → f' u ≤ f u + c) {T : Nat}
    (h : t < T) : sumTo f' T + a ≤ sumTo f T + x + c * T := by
  have hlow : ∀ T, T ≤ t → sumTo f' T ≤ sumTo f T + c * T := by
    intro T
    induction T with
    | zero => simp [sumTo]
    | succ T ih =>
      intro hT
      have h1 := ih (by omega)
      have h2 := hoth T (by omega)
      simp only [sumTo, Nat.mul_add, Nat.mul_one]; omega
  induction T with
  | zero => omega
  | succ T ih =>
    simp only [sumTo, Nat.mul_add, Nat.mul_one]
    by_cases ht : t = T
    · subst ht
      have := hlow t (Nat.le_refl _)
      omega
    · have h1 := ih (by omega)
      have h2 := hoth T (Ne.symm ht)
      omega

/-- Total over the responses. -/
def returns : History O R → Nat
  | [] => 0
  | .inv _ _ :: h => returns h
  | .res _ _ :: h => returns h + 1

theorem returns_append (h h' : History O R) : returns (h ++ h') = returns h + returns h' := by
  induction h with
  | nil => simp [returns]
  | cons e h ih => cases e <;> simp [returns, ih, Nat.add_right_comm]

theorem sumTo_le {f : Nat → Nat} {c : Nat} (h : ∀ t, f t ≤ c) (T : Nat) : sumTo f T ≤ c * T := by
  induction T with
  | zero => simp [sumTo]
  | succ T ih => have := h T; simp only [sumTo, Nat.mul_add, Nat.mul_one]; omega

open Classical in
/-- All but at most `T` of the calls have returned. -/
theorem Counted.calls_le (hlaw : m.Lawful) (hbusy : ∀ t s p ch s' p' e, m.step t s p ch = some (s', p', e) →
      (∀ r, e ≠ some (.res t r)) → p ≠ p' → p' ≠ m.idle)
    (hne : ∀ t s p ch s' p' o, m.step t s p ch = some (s', p', some (.inv t o)) → p' ≠ m.idle)
    (hx : Counted m ok spur T C₀ h C k f) : callCosts (fun _ => 1) h ≤ returns h + T := by
  have key : callCosts (fun _ => 1) h ≤ returns h + sumTo (fun t => if C.pc t = m.idle then 0 else 1) T := by
    have hstep : ∀ {h : History O R} {C : MConf S P} {t ch s' p' e}, t < T → m.step t C.s (C.pc t) ch = some (s', p', e) →
        callCosts (fun _ => 1) h ≤ returns h + sumTo (fun t => if C.pc t = m.idle then 0 else 1) T →
        callCosts (fun _ => 1) (h ++ e.toList) ≤
          returns (h ++ e.toList) + sumTo (fun u => if upd C.pc t p' u = m.idle then 0 else 1) T := by
      intro h C t ch s' p' e ht hs ih
      rw [callCosts_append, returns_append]
      have h1 : (fun u => if upd C.pc t p' u = m.idle then 0 else 1) =
          upd (fun t => if C.pc t = m.idle then 0 else 1) t (if p' = m.idle then 0 else 1) := by
        funext u; simp only [upd_apply]; split <;> simp_all
      rw [h1]
      have h2 := sumTo_upd (fun t => if C.pc t = m.idle then 0 else 1) t (if p' = m.idle then 0 else 1) ht
      cases e with
      | none =>
        simp only [Option.toList, callCosts, returns]
        by_cases hpp : C.pc t = p'
        · rw [hpp] at h2; omega
        · rw [if_neg (hbusy _ _ _ _ _ _ _ hs (by simp) hpp)] at h2 ⊢
          split at h2 <;> omega
      | some e =>
        rcases hlaw _ _ _ _ _ _ _ hs with ⟨h3, o, rfl⟩ | ⟨r, h3, h4, rfl⟩
        · rw [if_neg (hne _ _ _ _ _ _ _ hs)] at h2 ⊢
          rw [if_pos h3] at h2
          simp only [Option.toList, callCosts, returns]; omega
        · rw [if_pos h4] at h2 ⊢
          simp only [Option.toList, callCosts, returns]
          split at h2 <;> omega
    induction hx with
    | refl => simp [callCosts]
    | step _ ht hs _ _ ih => exact hstep ht hs ih
    | fail _ ht hs _ _ ih => exact hstep ht hs ih
  have := sumTo_le (f := fun t => if C.pc t = m.idle then 0 else 1) (c := 1) (fun t => by split <;> omega) T
  omega

theorem callCosts_le {cost : O → Nat} {B : Nat} {h : History O R} (hB : ∀ t o, Event.inv t o ∈ h → cost o ≤ B) :
    callCosts cost h ≤ B * callCosts (fun _ => 1) h := by
  induction h with
  | nil => simp [callCosts]
  | cons e h ih =>
    have h1 := ih fun t o ho => hB t o (by simp [ho])
    cases e with
    | inv t o =>
      have := hB t o (by simp)
      simp only [callCosts, Nat.mul_add, Nat.mul_one]; omega
    | res t r => simpa [callCosts] using h1

/-! ### Chains: their length -/

open Classical in
/-- The number of nodes reached from `p` by following `next` until null. -/
noncomputable def chainLen (next : Nat → Tagged) (p : Option Nat) : Nat :=
  if h : ∃ l, Chain next p l then h.choose.length else 0

theorem Chain.len {next : Nat → Tagged} {p l} (h : Chain next p l) : chainLen next p = l.length := by
  have hx : ∃ l, Chain next p l := ⟨l, h⟩
  rw [chainLen, dif_pos hx, hx.choose_spec.unique h]

theorem Chain.len_congr {next next' : Nat → Tagged} {p l} (h : Chain next p l)
    (e : ∀ n ∈ l, (next' n).ptr = (next n).ptr) : chainLen next' p = chainLen next p := by
  rw [h.len, (h.congr e).len]

theorem Chain.len_tail {next : Nat → Tagged} {p n l} (h : Chain next p (n :: l)) :
    chainLen next p = chainLen next (next n).ptr + 1 := by
  rw [h.len, h.2.len]; simp

theorem chainLen_none (next : Nat → Tagged) : chainLen next none = 0 := by
  rw [Chain.len (l := []) (rfl : Chain next none [])]; rfl

/-! ### A comparison fails because of somebody else -/

/-- `w` is a shared word and `snap` the copy of it that a thread at some PC holds and will compare. If the word differs from
the copy, then since the copy was made the word was changed by a step of another thread. -/
theorem MSteps.changed_by_other {m : Mach S P Ch O R} {ok : S → P → Ch → Prop} {C₀ C : MConf S P} {h : History O R}
    {A : Type} (w : S → A) (snap : P → Option A) (t : Nat) (h0 : snap (C₀.pc t) = none)
    (hown : ∀ s p ch s' p' e v, m.step t s p ch = some (s', p', e) → snap p' = some v →
      w s' = v ∨ (snap p = some v ∧ w s' = w s))
    (hx : MSteps m ok C₀ h C) {v : A} (hv : snap (C.pc t) = some v) (hne : w C.s ≠ v) :
    ∃ h₁ C₁ u ch s' p' e h₂, u ≠ t ∧ MSteps m ok C₀ h₁ C₁ ∧ snap (C₁.pc t) = some v ∧ w C₁.s = v ∧
      m.step u C₁.s (C₁.pc u) ch = some (s', p', e) ∧ ok C₁.s (C₁.pc u) ch ∧ w s' ≠ v ∧
      MSteps m ok ⟨s', upd C₁.pc u p'⟩ h₂ C ∧ h = h₁ ++ e.toList ++ h₂ := by
  induction hx with
  | refl => rw [h0] at hv; cases hv
  | @step h C u ch s' p' e hx hs hok ih =>
    by_cases old : snap (C.pc t) = some v ∧ w C.s ≠ v
    · obtain ⟨h₁, C₁, u', ch', s'', p'', e', h₂, h1, h2, h3, h4, h5, h6, h7, h8, rfl⟩ := ih old.1 old.2
      exact ⟨h₁, C₁, u', ch', s'', p'', e', _, h1, h2, h3, h4, h5, h6, h7, h8.step hs hok, by simp⟩
    · by_cases hut : u = t
      · subst hut
        simp only [upd_self] at hv
        rcases hown _ _ _ _ _ _ _ hs hv with h1 | ⟨h1, h2⟩
        · exact absurd h1 hne
        · exact absurd ⟨h1, by rw [← h2]; exact hne⟩ old
      · simp only [upd_ne _ _ _ (Ne.symm hut)] at hv
        by_cases hw : w C.s = v
        · exact ⟨h, C, u, ch, s', p', e, [], hut, hx, hv, hw, hs, hok, hne, .refl _, by simp⟩
        · exact absurd ⟨hv, hw⟩ old

/-! ### Solo termination -/

/-- A thread that always has an enabled step and a decreasing bound comes to the end when it runs alone. -/
theorem Alone.terminates {m : Mach S P Ch O R} {ok : S → P → Ch → Prop} {t : Nat} (I : S → P → Prop) (ν : S → P → Nat)
    (hI : ∀ s p, I s p → p ≠ m.idle →
      ∃ ch s' p' e, m.step t s p ch = some (s', p', e) ∧ ok s p ch ∧ ν s' p' + 1 ≤ ν s p ∧
        ((∃ r, p' = m.idle ∧ e = some (.res t r)) ∨ (e = none ∧ p' ≠ m.idle ∧ I s' p')))
    {s : S} {p : P} (hi : I s p) (hp : p ≠ m.idle) :
    ∃ k s' r, k ≤ ν s p ∧ Alone m ok t k s p [.res t r] s' m.idle := by
  generalize hn : ν s p = n
  induction n using Nat.strongRecOn generalizing s p with
  | ind n ih =>
    obtain ⟨ch, s', p', e, hs, hok, hν, ⟨r, rfl, rfl⟩ | ⟨rfl, hp', hi'⟩⟩ := hI s p hi hp
    · exact ⟨1, s', r, by omega, .one hs hok⟩
    · obtain ⟨k, s'', r, hk, hx⟩ := ih (ν s' p') (by omega) hi' hp' rfl
      exact ⟨k + 1, s'', r, by omega, .cons hs hok hx⟩

end Verif

namespace Verif
open Lin

variable {α Op : Type}

/-! ### Costs of `allocate` and `deallocate`

The bounds below count the steps a thread needs if it is not interfered with, plus `W` for every successful compare-exchange
that is still to come. -/

/-- Two more steps if the snapshot is out of date. -/
def stale (w : Tagged) (o : Snap) : Nat := if w = o.v then 0 else 2

theorem stale_le (w : Tagged) (o : Snap) : stale w o ≤ 2 := by unfold stale; split <;> omega

theorem stale_ne {w : Tagged} {o : Snap} (h : w ≠ o.v) : stale w o = 2 := if_neg h

theorem stale_eq {w : Tagged} {o : Snap} (h : w = o.v) : stale w o = 0 := if_pos h

theorem stale_snap (h : Heap α) : stale h.pool h.poolSnap = 0 := if_pos rfl

/-- `allocate`. -/
def aCost (W : Nat) (w : Tagged) : APC → Nat
  | .load => 3 + W
  | .test o => 2 + W + stale w o
  | .cas o _ => 1 + W + stale w o

/-- `deallocate`. -/
def dCost (W : Nat) (w : Tagged) : DPC → Nat
  | .load => 3 + W
  | .set o => 2 + W + stale w o
  | .cas o => 1 + W + stale w o

/-- Does a word differ? -/
def diff (w w' : Tagged) : Nat := if w' = w then 0 else 1

theorem diff_self (w : Tagged) : diff w w = 0 := if_pos rfl

theorem diff_le (w w' : Tagged) : diff w w' ≤ 1 := by unfold diff; split <;> omega

theorem mul_diff_le (W : Nat) (w w' : Tagged) : W * diff w w' ≤ W := by
  have := Nat.mul_le_mul_left W (diff_le w w'); simpa using this

theorem stale_diff (w w' : Tagged) (o : Snap) : stale w' o ≤ stale w o + 2 * diff w w' := by
  by_cases h : w' = w
  · subst h; simp [diff]
  · have := stale_le w' o; simp [diff, h]; omega

theorem aCost_diff (W : Nat) (w w' : Tagged) (a : APC) : aCost W w' a ≤ aCost W w a + 2 * diff w w' := by
  cases a with
  | load => simp [aCost]
  | test o => have := stale_diff w w' o; simp only [aCost]; omega
  | cas o => have := stale_diff w w' o; simp only [aCost]; omega

theorem dCost_diff (W : Nat) (w w' : Tagged) (a : DPC) : dCost W w' a ≤ dCost W w a + 2 * diff w w' := by
  cases a with
  | load => simp [dCost]
  | set o => have := stale_diff w w' o; simp only [dCost]; omega
  | cas o => have := stale_diff w w' o; simp only [dCost]; omega

theorem aCost_pos (W : Nat) (w : Tagged) (a : APC) : 1 + W ≤ aCost W w a := by cases a <;> simp only [aCost] <;> omega

theorem dCost_pos (W : Nat) (w : Tagged) (a : DPC) : 1 + W ≤ dCost W w a := by cases a <;> simp only [dCost] <;> omega

theorem aCost_le (W : Nat) (w : Tagged) (a : APC) : aCost W w a ≤ 4 + W := by
  cases a with
  | load => simp only [aCost]; omega
  | test o => have := stale_le w o; simp only [aCost]; omega
  | cas o => have := stale_le w o; simp only [aCost]; omega

theorem dCost_le (W : Nat) (w : Tagged) (a : DPC) : dCost W w a ≤ 4 + W := by
  cases a with
  | load => simp only [dCost]; omega
  | set o => have := stale_le w o; simp only [dCost]; omega
  | cas o => have := stale_le w o; simp only [dCost]; omega

theorem aStep_more_cost {cfg : Cfg} {b : Bool} {h h' : Heap α} {a a' : APC} {ch : Choice Op} (W : Nat)
    (hs : aStep cfg b h a ch = some (h', .more a')) :
    h' = h ∧ (ch ≠ .spur → aCost W h.pool a' + 1 ≤ aCost W h.pool a) ∧ aCost W h.pool a' ≤ aCost W h.pool a + 1 := by
  cases a with
  | load =>
    cases ch <;> simp [aStep] at hs
    obtain ⟨rfl, rfl⟩ := hs
    refine ⟨rfl, ?_⟩; simp only [aCost, stale_snap]; exact ⟨fun _ => by omega, by omega⟩
  | test o =>
    simp only [aStep] at hs
    split at hs
    · split at hs <;> split at hs <;> simp at hs
    · split at hs
      · simp at hs; obtain ⟨rfl, rfl⟩ := hs; refine ⟨rfl, ?_⟩; simp only [aCost]; exact ⟨fun _ => by omega, by omega⟩
      · split at hs <;> simp at hs
        obtain ⟨rfl, rfl⟩ := hs; refine ⟨rfl, ?_⟩; simp only [aCost]; exact ⟨fun _ => by omega, by omega⟩
      · simp at hs
  | cas o nx =>
    cases ch <;> simp [aStep] at hs
    · split at hs
      · split at hs <;> simp at hs
      · rename_i hne
        simp at hs; obtain ⟨rfl, rfl⟩ := hs
        refine ⟨rfl, ?_⟩; simp only [aCost, stale_snap, stale_ne hne]; exact ⟨fun _ => by omega, by omega⟩
    · obtain ⟨rfl, rfl⟩ := hs
      refine ⟨rfl, ?_⟩; simp only [aCost, stale_snap]; exact ⟨by simp, by omega⟩

theorem dStep_cost {h h' : Heap α} {n : Nat} {d : DPC} {x : Option DPC} {ch : Choice Op} (W : Nat)
    (hs : dStep h n d ch = some (h', x)) :
    (∀ m, m ≠ n → h'.next m = h.next m) ∧
    (∀ d', x = some d' → h'.pool = h.pool ∧ (ch ≠ .spur → dCost W h.pool d' + 1 ≤ dCost W h.pool d) ∧
      dCost W h.pool d' ≤ dCost W h.pool d + 1) ∧
    (x = none → ch ≠ .spur ∧ 1 + W ≤ dCost W h.pool d) := by
  cases d with
  | load =>
    cases ch <;> simp [dStep] at hs
    obtain ⟨rfl, rfl⟩ := hs
    refine ⟨fun _ _ => rfl, fun d' hd => ?_, by simp⟩
    cases hd
    refine ⟨rfl, ?_⟩; simp only [dCost, stale_snap]; exact ⟨fun _ => by omega, by omega⟩
  | set o =>
    cases ch <;> simp [dStep] at hs
    obtain ⟨rfl, rfl⟩ := hs
    refine ⟨fun m hm => by simp [Heap.setNextPtr, upd_ne _ _ _ hm], fun d' hd => ?_, by simp⟩
    cases hd
    refine ⟨rfl, ?_⟩; simp only [dCost]; exact ⟨fun _ => by omega, by omega⟩
  | cas o =>
    cases ch <;> simp [dStep] at hs
    · split at hs
      · simp at hs; obtain ⟨rfl, rfl⟩ := hs
        refine ⟨fun _ _ => rfl, by simp, fun _ => ⟨by simp, dCost_pos _ _ _⟩⟩
      · rename_i hne
        simp at hs; obtain ⟨rfl, rfl⟩ := hs
        refine ⟨fun _ _ => rfl, fun d' hd => ?_, by simp⟩
        cases hd
        refine ⟨rfl, ?_⟩; simp only [dCost, stale_snap, stale_ne hne]; exact ⟨fun _ => by omega, by omega⟩
    · obtain ⟨rfl, rfl⟩ := hs
      refine ⟨fun _ _ => rfl, fun d' hd => ?_, by simp⟩
      cases hd
      refine ⟨rfl, ?_⟩; simp only [dCost, stale_snap]; exact ⟨by simp, by omega⟩

/-- The freelist never blocks: a step that is neither a failure nor an exception is always possible. -/
theorem aStep_go {cfg : Cfg} (b : Bool) {h : Heap α} {F : List Nat} {a : APC} (hl : ALocal cfg h F a) :
    ∃ h' r, aStep (Op := Op) cfg b h a .go = some (h', r) := by
  cases a with
  | load => exact ⟨_, _, rfl⟩
  | test o => simp only [aStep]; split <;> (try split) <;> exact ⟨_, _, rfl⟩
  | cas o nx =>
    obtain ⟨_, n, hn, _⟩ := hl
    simp only [aStep]; split
    · rw [hn]; exact ⟨_, _, rfl⟩
    · exact ⟨_, _, rfl⟩

theorem dStep_go (h : Heap α) (n : Nat) (d : DPC) : ∃ h' r, dStep (Op := Op) h n d .go = some (h', r) := by
  cases d with
  | load => exact ⟨_, _, rfl⟩
  | set o => exact ⟨_, _, rfl⟩
  | cas o => simp only [dStep]; split <;> exact ⟨_, _, rfl⟩

theorem aStep_pool {cfg : Cfg} {b : Bool} {h h' : Heap α} {a : APC} {ch : Choice Op} {r} (hs : aStep cfg b h a ch = some (h', r))
    (hne : h'.pool ≠ h.pool) : ∃ o nx, a = .cas o nx ∧ o.v = h.pool := by
  cases a with
  | load => cases ch <;> simp [aStep] at hs; exact absurd (by rw [← hs.1]) hne
  | test o =>
    simp only [aStep] at hs
    split at hs
    · split at hs <;> split at hs <;> simp at hs <;> exact absurd (by rw [← hs.1]; try rfl) hne
    · split at hs
      · simp at hs; exact absurd (by rw [← hs.1]) hne
      · split at hs <;> simp at hs; exact absurd (by rw [← hs.1]) hne
      · simp at hs
  | cas o nx =>
    refine ⟨o, nx, rfl, ?_⟩
    cases ch <;> simp only [aStep] at hs <;> try (simp at hs; done)
    · split at hs
      · rename_i h1; exact h1.symm
      · simp at hs; exact absurd (by rw [← hs.1]) hne
    · simp at hs; exact absurd (by rw [← hs.1]) hne

theorem dStep_pool {h h' : Heap α} {m : Nat} {d : DPC} {ch : Choice Op} {r} (hs : dStep h m d ch = some (h', r))
    (hne : h'.pool ≠ h.pool) : ∃ o, d = .cas o ∧ o.v = h.pool := by
  cases d with
  | load => cases ch <;> simp [dStep] at hs; exact absurd (by rw [← hs.1]) hne
  | set o => cases ch <;> simp [dStep] at hs; exact absurd (by rw [← hs.1]; rfl) hne
  | cas o =>
    refine ⟨o, rfl, ?_⟩
    cases ch <;> simp only [dStep] at hs <;> try (simp at hs; done)
    · split at hs
      · rename_i h1; exact h1.symm
      · simp at hs; exact absurd (by rw [← hs.1]) hne
    · simp at hs; exact absurd (by rw [← hs.1]) hne

theorem aStep_copy {cfg : Cfg} {b : Bool} {h h' : Heap α} {a : APC} {ch : Choice Op} {a'} (hs : aStep cfg b h a ch = some (h', .more a')) :
    h' = h ∧ (a' = .test h.poolSnap ∨ ∃ o nx, a = .test o ∧ a' = .cas o nx) := by
  cases a with
  | load => cases ch <;> simp [aStep] at hs; exact ⟨hs.1.symm, .inl hs.2.symm⟩
  | test o =>
    simp only [aStep] at hs
    split at hs
    · split at hs <;> split at hs <;> simp at hs
    · split at hs
      · simp at hs; exact ⟨hs.1.symm, .inr ⟨_, _, rfl, hs.2.symm⟩⟩
      · split at hs <;> simp at hs; exact ⟨hs.1.symm, .inr ⟨_, _, rfl, hs.2.symm⟩⟩
      · simp at hs
  | cas o nx =>
    cases ch <;> simp only [aStep] at hs <;> try (simp at hs; done)
    · split at hs
      · split at hs <;> simp at hs
      · simp at hs; exact ⟨hs.1.symm, .inl hs.2.symm⟩
    · simp at hs; exact ⟨hs.1.symm, .inl hs.2.symm⟩

theorem dStep_copy {h h' : Heap α} {m : Nat} {d : DPC} {ch : Choice Op} {d'} (hs : dStep h m d ch = some (h', some d')) :
    h'.pool = h.pool ∧ (d' = .set h.poolSnap ∨ ∃ o, d = .set o ∧ d' = .cas o) := by
  cases d with
  | load => cases ch <;> simp [dStep] at hs; obtain ⟨rfl, rfl⟩ := hs; exact ⟨rfl, .inl rfl⟩
  | set o => cases ch <;> simp [dStep] at hs; obtain ⟨rfl, rfl⟩ := hs; exact ⟨rfl, .inr ⟨o, rfl, rfl⟩⟩
  | cas o =>
    cases ch <;> simp only [dStep] at hs <;> try (simp at hs; done)
    · split at hs
      · simp at hs
      · simp at hs; obtain ⟨rfl, rfl⟩ := hs; exact ⟨rfl, .inl rfl⟩
    · simp at hs; obtain ⟨rfl, rfl⟩ := hs; exact ⟨rfl, .inl rfl⟩

/-- A copy of a tagged word whose tag has not wrapped since. -/
def young (cfg : Cfg) (ver : Nat) (o : Snap) : Prop := cfg.M = 0 ∨ ver < o.ver + cfg.M

theorem young_new (cfg : Cfg) (ver : Nat) (o : Snap) (h : o.ver = ver) : young cfg ver o := by
  unfold young; omega

theorem aStep_spur {cfg : Cfg} {b : Bool} {h h' : Heap α} {a : APC} {x} (hs : aStep cfg b h a (.spur : Choice Op) = some (h', x)) :
    x = .more (.test h.poolSnap) := by
  cases a with
  | load => simp [aStep] at hs
  | test o => simp only [aStep] at hs; split at hs <;> (try split at hs) <;> simp at hs
  | cas o nx => simp [aStep] at hs; exact hs.2.symm

end Verif
