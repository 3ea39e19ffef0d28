import Verif.HeapObs
import Verif.HeapInv
import Verif.Mach
import Mathlib.Data.List.Perm.Subperm

/-!
# How the length of the freelist changes (proof)
-/

namespace Verif
open Lin

variable {α Op : Type} {cfg : Cfg} {h h' : Heap α} {own own' : Nat → Owner} {F F' : List Nat} {held held' : Nat → List Nat}

theorem length_le_of_subset {l l' : List Nat} (hn : l.Nodup) (h : ∀ x ∈ l, x ∈ l') : l.length ≤ l'.length :=
  (List.subperm_of_subset hn h).length_le

/-- An allocation takes at most one node from the freelist. -/
theorem aStep_len {b : Bool} (hi : HInv cfg h own F held) {a : APC} (hl : ALocal cfg h F a) (hf : aFresh cfg h a)
    {ch : Choice Op} {n} (hs : aStep cfg b h a ch = some (h', .got n)) (hi' : HInv cfg h' own' F' held') :
    F.length ≤ F'.length + 1 := by
  have h1 := aStep_inv (t := 0) hi hl hf hs
  obtain ⟨F₁, h2, _, _, h3⟩ := h1
  have : F₁ = F' := h2.inv.chain.unique hi'.chain
  subst this
  have : ∀ x ∈ F, x ∈ n :: F₁ := by
    intro x hx
    by_cases hxn : x = n
    · simp [hxn]
    · have h4 := (hi.fmem x).2 hx
      have h5 := (h2.inv.fmem x)
      rw [upd_ne _ _ _ hxn] at h5
      simp [h5.1 h4]
  simpa using length_le_of_subset hi.fnodup this

/-- A deallocation that completes adds one node to the freelist. -/
theorem dStep_len {t n : Nat} (hi : HInv cfg h own F held) (hn : n ∈ held t) (hd : h.data n = none) {d : DPC}
    (hl : DLocal h n d) {ch : Choice Op} (hs : dStep h n d ch = some (h', none)) (hi' : HInv cfg h' own' F' held') :
    F.length + 1 ≤ F'.length := by
  obtain ⟨F₁, h2, _⟩ := dStep_inv (t := t) hi hn hd hl hs
  have : F₁ = F' := h2.inv.chain.unique hi'.chain
  subst this
  have hnF : n ∉ F := fun hm => by
    have h1 := (hi.fmem n).2 hm
    have h2 := (hi.hmem t n).2 hn
    rw [h1] at h2; cases h2
  have : ∀ x ∈ n :: F, x ∈ F₁ := by
    intro x hx
    have h5 := (h2.inv.fmem x)
    rcases List.mem_cons.1 hx with rfl | hx'
    · exact h5.1 (by simp)
    · have hxn : x ≠ n := by rintro rfl; exact hnF hx'
      rw [upd_ne _ _ _ hxn] at h5
      exact h5.1 ((hi.fmem x).2 hx')
  simpa using length_le_of_subset (List.nodup_cons.2 ⟨hnF, hi.fnodup⟩) this

/-! ### Sums over threads -/

/-- `x` if `c`. -/
def only (c : Bool) (x : Nat) : Nat := if c then x else 0

theorem only_add (w : Bool) (a b : Nat) : only w (a + b) = only w a + only w b := by cases w <;> simp [only]

variable {S P : Type}

/-- The total of `f` over the threads below `T`. -/
def total (f : P → Nat) (C : MConf S P) (T : Nat) : Nat := sumTo (fun t => f (C.pc t)) T

theorem total_upd (f : P → Nat) (C : MConf S P) {t T : Nat} (p' : P) (s' : S) (h : t < T) :
    total f ⟨s', upd C.pc t p'⟩ T + f (C.pc t) = total f C T + f p' := by
  have h1 := sumTo_upd (fun t => f (C.pc t)) t (f p') h
  have h2 : (fun x => f (upd C.pc t p' x)) = upd (fun t => f (C.pc t)) t (f p') := by
    funext x; simp only [upd_apply]; split <;> rfl
  simp only [total, h2]; exact h1

theorem total_idle (f : P → Nat) (C : MConf S P) (h : ∀ t, f (C.pc t) = 0) (T : Nat) : total f C T = 0 := by
  induction T with
  | zero => rfl
  | succ T ih => simp only [total, sumTo] at ih ⊢; rw [ih, h T]

theorem le_total (f : P → Nat) (C : MConf S P) {t T : Nat} (h : t < T) : f (C.pc t) ≤ total f C T := by
  induction T with
  | zero => omega
  | succ T ih =>
    simp only [total, sumTo] at ih ⊢
    by_cases ht : t = T
    · subst ht; omega
    · have := ih (by omega); omega

theorem flatMap_length (f : Nat → List Nat) (T : Nat) : ((List.range T).flatMap f).length = sumTo (fun t => (f t).length) T := by
  induction T with
  | zero => rfl
  | succ T ih => rw [List.range_succ, List.flatMap_append]; simp [sumTo, ih]

theorem sumTo_add_le (f g : Nat → Nat) (T : Nat) (h : ∀ t, f t + g t ≤ 1) : sumTo f T + sumTo g T ≤ T := by
  induction T with
  | zero => simp [sumTo]
  | succ T ih => have := h T; simp only [sumTo]; omega

end Verif
