import Verif.HeapInv

/-!
# Vocabulary about the node heap for property statements, and facts about freelist steps
-/

namespace Verif
open Lin

variable {α Op : Type} {cfg : Cfg}

/-- Node `n` is reachable from `p` along `next` in a null-terminated list. -/
def Reach (h : Heap α) (p : Option Nat) (n : Nat) : Prop := ∃ l, Chain h.next p l ∧ n ∈ l

theorem aStep_call {cfg : Cfg} {b : Bool} {h : Heap α} {a : APC} {o : Op} :
    aStep cfg b h a (.call o) = none := by
  cases a <;> simp only [aStep]
  split
  · split <;> rfl
  · rfl

theorem aStep_ver {cfg : Cfg} {b : Bool} {h : Heap α} {a : APC} {ch : Choice Op} {h' r}
    (hh : aStep cfg b h a ch = some (h', r)) : h.poolVer ≤ h'.poolVer := by
  cases a with
  | load => cases ch <;> simp [aStep] at hh; obtain ⟨rfl, _⟩ := hh; simp
  | test o =>
    simp only [aStep] at hh
    split at hh
    · split at hh
      · split at hh <;> simp at hh; obtain ⟨rfl, _⟩ := hh; simp
      · split at hh <;> simp at hh <;> obtain ⟨rfl, _⟩ := hh <;> simp [Heap.malloc]
    · split at hh
      · simp at hh; obtain ⟨rfl, _⟩ := hh; simp
      · split at hh <;> simp at hh; obtain ⟨rfl, _⟩ := hh; simp
      · simp at hh
  | cas o nx =>
    cases ch <;> simp [aStep] at hh
    · split at hh
      · split at hh <;> simp at hh; obtain ⟨rfl, _⟩ := hh; simp
      · simp at hh; obtain ⟨rfl, _⟩ := hh; simp
    · obtain ⟨rfl, _⟩ := hh; simp

theorem dStep_ver {h : Heap α} {n : Nat} {d : DPC} {ch : Choice Op} {h' r}
    (hh : dStep h n d ch = some (h', r)) : h'.poolVer = h.poolVer ∧ h'.nalloc = h.nalloc := by
  cases d <;> cases ch <;> simp [dStep] at hh <;> (try split at hh) <;> (try simp at hh) <;>
    obtain ⟨rfl, _⟩ := hh <;> simp [Heap.setNextPtr]

theorem reach_iff {h : Heap α} {p l m} (hc : Chain h.next p l) : Reach h p m ↔ m ∈ l := by
  constructor
  · rintro ⟨l', h2, hm⟩; rw [hc.unique h2]; exact hm
  · exact fun hm => ⟨l, hc, hm⟩

theorem aStep_to_test {b : Bool} {hp hp' : Heap α} {a : APC} {ch : Choice Op} {o}
    (hs : aStep cfg b hp a ch = some (hp', .more (.test o))) : hp' = hp ∧ o = hp.poolSnap := by
  cases a with
  | load => cases ch <;> simp [aStep] at hs; exact ⟨hs.1.symm, hs.2.symm⟩
  | test o' =>
    simp only [aStep] at hs
    split at hs
    · split at hs <;> split at hs <;> simp at hs
    · split at hs <;> (try split at hs) <;> simp at hs
  | cas o' nx =>
    cases ch <;> simp [aStep] at hs
    · split at hs
      · split at hs <;> simp at hs
      · simp at hs; exact ⟨hs.1.symm, hs.2.symm⟩
    · exact ⟨hs.1.symm, hs.2.symm⟩

theorem aStep_null {b : Bool} {hp hp' : Heap α} {a : APC} {ch : Choice Op}
    (hs : aStep cfg b hp a ch = some (hp', .null)) : ∃ o, a = .test o ∧ o.v.ptr = none := by
  cases a with
  | load => cases ch <;> simp [aStep] at hs
  | test o' =>
    refine ⟨o', rfl, ?_⟩
    simp only [aStep] at hs
    split at hs
    · assumption
    · split at hs <;> (try split at hs) <;> simp at hs
  | cas o' nx =>
    cases ch <;> simp [aStep] at hs
    split at hs
    · split at hs <;> simp at hs
    · simp at hs

theorem aStep_nalloc {b : Bool} {hp hp' : Heap α} {a : APC} {ch : Choice Op} {r}
    (hs : aStep cfg b hp a ch = some (hp', r)) :
    hp'.nalloc = hp.nalloc ∨
      (hp'.nalloc = hp.nalloc + 1 ∧ (cfg.fixed || b) = false ∧ (∃ n, r = .got n) ∧
        ∃ o, a = .test o ∧ o.v.ptr = none) := by
  cases a with
  | load => cases ch <;> simp [aStep] at hs; rw [← hs.1]; simp
  | test o =>
    simp only [aStep] at hs
    split at hs
    · rename_i ho
      split at hs
      · split at hs <;> simp at hs; rw [← hs.1]; simp
      · rename_i hb
        split at hs <;> simp at hs
        · right; rw [← hs.1]
          exact ⟨rfl, by simpa using hb, ⟨_, hs.2.symm⟩, _, rfl, ho⟩
        · rw [← hs.1]; simp
    · split at hs
      · simp at hs; rw [← hs.1]; simp
      · split at hs <;> simp at hs; rw [← hs.1]; simp
      · simp at hs
  | cas o nx =>
    left
    cases ch <;> simp [aStep] at hs
    · split at hs
      · split at hs <;> simp at hs; rw [← hs.1]
      · simp at hs; rw [← hs.1]
    · rw [← hs.1]

theorem sum_map_zero {β : Type} {f : β → Nat} {l : List β} (hz : ∀ x ∈ l, f x = 0) : (l.map f).sum = 0 := by
  induction l with
  | nil => rfl
  | cons x l ih => simp only [List.map_cons, List.sum_cons]; rw [hz x (by simp), ih fun y hy => hz y (by simp [hy])]

def sumTo (f : Nat → Nat) : Nat → Nat
  | 0 => 0
  | T + 1 => sumTo f T + f T

theorem sumTo_upd_ge (f : Nat → Nat) (t x : Nat) {T : Nat} (h : T ≤ t) : sumTo (upd f t x) T = sumTo f T := by
  induction T with
  | zero => rfl
  | succ T ih => simp only [sumTo]; rw [ih (by omega), upd_ne _ _ _ (by omega)]

theorem sumTo_upd (f : Nat → Nat) (t x : Nat) {T : Nat} (h : t < T) :
    sumTo (upd f t x) T + f t = sumTo f T + x := by
  induction T with
  | zero => omega
  | succ T ih =>
    simp only [sumTo]
    by_cases ht : t = T
    · subst ht; rw [sumTo_upd_ge f t x (Nat.le_refl _)]; simp; omega
    · have := ih (by omega)
      rw [upd_ne _ _ _ (Ne.symm ht)]; omega

theorem sumTo_mono (f : Nat → Nat) {T T' : Nat} (h : T ≤ T') : sumTo f T ≤ sumTo f T' := by
  induction h with
  | refl => exact Nat.le_refl _
  | step _ ih => simp only [sumTo]; omega

end Verif
