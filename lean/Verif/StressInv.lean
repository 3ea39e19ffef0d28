import Verif.Stress

/-!
# The stress tests: invariant

No further code of /repo is modelled here.
-/

namespace Verif.Example
variable {A : Type}

theorem total_le {F G : A → Nat} {f : Nat → A} {n : Nat} (h : ∀ u < n, F (f u) ≤ G (f u)) : total F f n ≤ total G f n := by
  induction n with
  | zero => simp [total]
  | succ n ih =>
    have := ih fun u hu => h u (by omega)
    simp only [total] at this ⊢
    rw [List.range_succ]
    have := h n (by omega)
    simp; omega

theorem total_lt {F G : A → Nat} {f : Nat → A} {n t : Nat} (h : ∀ u < n, F (f u) ≤ G (f u)) (ht : t < n) (hlt : F (f t) < G (f t)) :
    total F f n < total G f n := by
  induction n with
  | zero => omega
  | succ n ih =>
    have h2 := h n (by omega)
    have h3 := total_le fun u (hu : u < n) => h u (by omega)
    simp only [total] at ih h3 ⊢
    rw [List.range_succ]
    by_cases htn : t = n
    · subst htn; simp; omega
    · have := ih (fun u hu => h u (by omega)) (by omega)
      simp; omega

theorem le_total {F : A → Nat} {f : Nat → A} {n t : Nat} (ht : t < n) : F (f t) ≤ total F f n := by
  induction n with
  | zero => omega
  | succ n ih =>
    simp only [total] at ih ⊢
    rw [List.range_succ]
    by_cases htn : t = n
    · subst htn; simp
    · have := ih (by omega)
      simp; omega

theorem total_bound {F : A → Nat} {f : Nat → A} {n k : Nat} (h : ∀ u < n, F (f u) ≤ k) : total F f n ≤ n * k := by
  have h1 := total_le (F := F) (G := fun _ => k) (f := f) h
  rwa [total_const (F := fun _ => k) (k := k) fun _ _ => rfl] at h1

end Verif.Example

namespace Verif.Stress
open Lin User
open Verif.Example (total total_upd total_upd_ge total_const total_le total_lt le_total total_bound allPut Late)

variable {S P Ch O R O' R' : Type}

/-- What a thread can be doing. -/
def Role (x : Setup Ch R) (t : Nat) : At → Prop
  | .forTest _ | .gen _ | .insert _ _ | .push _ _ | .pushed _ | .report => t < x.writers
  | .pop _ | .erase _ _ | .insertD _ _ _ | .counted _ | .load => x.writers ≤ t ∧ t < x.main
  | .leave | .ended | .threw _ => t < x.main
  | .joinWriters | .joinReaders | .check | .counts | .passed | .failed => t = x.main
  | .absent => x.main < t

/-- Generated and in none of the two sets. -/
def moving : At → List Nat
  | .insert _ v | .insertD _ v _ => [v]
  | _ => []

/-- Popped and not yet in `dequeued`. -/
def taken : At → List Nat
  | .erase _ v | .insertD _ v _ => [v]
  | _ => []

/-- The value a writer is pushing. -/
def Owned : At → Nat → Prop
  | .insert _ v, w | .push _ v, w => v = w
  | _, _ => False

/-- Number of values generated by a writer. -/
def gcount (n : Nat) : At → Nat
  | .forTest i | .gen i => i
  | .insert i _ | .push i _ | .pushed i | .threw i => i + 1
  | .report | .leave | .ended => n
  | _ => 0

/-- Number of values pushed. -/
def pcount (n : Nat) : At → Nat
  | .forTest i | .gen i | .insert i _ | .push i _ | .threw i => i
  | .pushed i => i + 1
  | .report | .leave | .ended => n
  | _ => 0

/-- Number of values pushed and counted. -/
def ccount (n : Nat) : At → Nat
  | .forTest i | .gen i | .insert i _ | .push i _ | .threw i | .pushed i => i
  | .report | .leave | .ended => n
  | _ => 0

/-- Popped and not yet counted. -/
def owed : At → Nat
  | .erase _ _ | .insertD _ _ _ | .counted _ => 1
  | _ => 0

/-- A writer that has incremented `writers_finished`. -/
def isDone : At → Nat
  | .leave | .ended => 1
  | _ => 0

/-- A reader that has seen `writers_finished == writer_threads`. -/
def Past : At → Prop
  | .pop l | .erase l _ | .insertD l _ _ | .counted l => l = true
  | _ => False

def PastR (x : Setup Ch R) (t : Nat) (k : At) : Prop := Past k ∨ (x.writers ≤ t ∧ isDone k = 1)

/-- `run` has joined the writers. -/
def MainW : At → Prop
  | .joinReaders | .check | .counts | .passed => True
  | _ => False

/-- `run` has joined the readers. -/
def MainR : At → Prop
  | .check | .counts | .passed => True
  | _ => False

/-- 1 for the numbers from 1 to `n`. -/
def one (n a : Nat) : Nat := if 1 ≤ a ∧ a ≤ n then 1 else 0

/-- Invariant of places and variables. -/
structure VInv (x : Setup Ch R) (H : Nat → At) (g : Vars) : Prop where
  role : ∀ t, Role x t (H t)
  sets : ∀ a, g.data.count a + g.dequeued.count a + total (fun k => (moving k).count a) H x.main = one g.generator a
  own : ∀ t u v, Owned (H t) v → Owned (H u) v → t = u
  bound : ∀ t v, Owned (H t) v → 1 ≤ v ∧ v ≤ g.generator
  gens : g.generator = total (gcount x.count) H x.writers
  pushc : g.push_count = total (ccount x.count) H x.writers
  fin : g.finished = total isDone H x.writers
  past : ∀ t, PastR x t (H t) → g.finished = x.writers
  ended : ∀ t, g.ended t = true → H t = .ended
  mainW : MainW (H x.main) → ∀ t < x.writers, H t = .ended
  mainR : MainR (H x.main) → ∀ t < x.main, H t = .ended

section
variable {x : Setup Ch R} {H : Nat → At} {g g' : Vars} {t : Nat} {k' : At}

theorem isDone_le (k : At) : isDone k ≤ 1 := by cases k <;> simp [isDone]

theorem moving_role {k : At} (h : Role x t k) (ht : x.main ≤ t) : moving k = [] := by
  have hm : x.main = x.writers + x.readers := rfl
  cases k <;> simp [moving, Role] at h ⊢ <;> omega

theorem taken_role {k : At} (h : Role x t k) (ht : x.main ≤ t) : taken k = [] := by
  cases k <;> simp [taken, Role] at h ⊢ <;> omega

theorem owed_role {k : At} (h : Role x t k) (ht : x.main ≤ t) : owed k = 0 := by
  cases k <;> simp [owed, Role] at h ⊢ <;> omega

theorem pcount_role {k : At} (h : Role x t k) (hk : k ≠ .leave) (hk' : k ≠ .ended) (hk2 : ∀ i, k ≠ .threw i) (ht : x.writers ≤ t) :
    gcount x.count k = 0 ∧ ccount x.count k = 0 ∧ pcount x.count k = 0 ∧ isDone k = 0 := by
  cases k <;> simp [gcount, ccount, pcount, isDone, Role] at h hk hk' hk2 ⊢ <;> omega

theorem VInv.move (hv : VInv x H g) (hrole : Role x t k') (halive : H t ≠ .ended)
    (hsets : ∀ a, g'.data.count a + g'.dequeued.count a + (moving k').count a + one g.generator a =
      g.data.count a + g.dequeued.count a + (moving (H t)).count a + one g'.generator a)
    (hown : ∀ v, Owned k' v → Owned (H t) v ∨ (v = g.generator + 1 ∧ g'.generator = g.generator + 1))
    (hgen : g.generator ≤ g'.generator)
    (hgens : if t < x.writers then g'.generator + gcount x.count (H t) = g.generator + gcount x.count k' else g'.generator = g.generator)
    (hpushc : if t < x.writers then g'.push_count + ccount x.count (H t) = g.push_count + ccount x.count k' else g'.push_count = g.push_count)
    (hfle : g.finished ≤ g'.finished)
    (hfin : if t < x.writers then g'.finished + isDone (H t) = g.finished + isDone k' else g'.finished = g.finished)
    (hpast : PastR x t k' → PastR x t (H t) ∨ g.finished = x.writers)
    (hended : g'.ended = g.ended ∨ (g'.ended = upd g.ended t true ∧ k' = .ended))
    (hW : t = x.main → MainW k' → ∀ u < x.writers, H u = .ended)
    (hR : t = x.main → MainR k' → ∀ u < x.main, H u = .ended) : VInv x (upd H t k') g' := by
  have hm : x.main = x.writers + x.readers := rfl
  have hfin' : g'.finished = total isDone (upd H t k') x.writers := by
    by_cases ht : t < x.writers
    · rw [if_pos ht] at hfin
      have := total_upd isDone H k' ht
      have := hv.fin
      omega
    · rw [if_neg ht] at hfin
      rw [total_upd_ge _ _ _ (by omega), hfin]; exact hv.fin
  have hmax : g'.finished ≤ x.writers := by
    rw [hfin']
    have := total_bound (F := isDone) (f := upd H t k') (n := x.writers) (k := 1) fun u _ => isDone_le _
    simpa using this
  refine ⟨?_, ?_, ?_, ?_, ?_, ?_, hfin', ?_, ?_, ?_, ?_⟩
  · intro u
    by_cases hu : u = t
    · subst hu; simpa using hrole
    · rw [upd_ne _ _ _ hu]; exact hv.role u
  · intro a
    have h1 := hv.sets a
    have h2 := hsets a
    by_cases ht : t < x.main
    · have := total_upd (fun k => (moving k).count a) H k' ht
      omega
    · rw [total_upd_ge _ _ _ (by omega)]
      rw [moving_role hrole (by omega), moving_role (hv.role t) (by omega)] at h2
      omega
  · intro u w v h1 h2
    have other : ∀ y, y ≠ t → Owned (H y) v → Owned k' v → False := by
      intro y hy h3 h4
      rcases hown v h4 with h5 | ⟨rfl, _⟩
      · exact hy (hv.own _ _ _ h3 h5)
      · have := (hv.bound _ _ h3).2; omega
    by_cases hu : u = t <;> by_cases hw : w = t
    · omega
    · subst hu
      rw [upd_self] at h1
      rw [upd_ne _ _ _ hw] at h2
      exact (other _ hw h2 h1).elim
    · subst hw
      rw [upd_self] at h2
      rw [upd_ne _ _ _ hu] at h1
      exact (other _ hu h1 h2).elim
    · rw [upd_ne _ _ _ hu] at h1
      rw [upd_ne _ _ _ hw] at h2
      exact hv.own _ _ _ h1 h2
  · intro u v h1
    by_cases hu : u = t
    · subst hu
      rw [upd_self] at h1
      rcases hown v h1 with h2 | ⟨rfl, h2⟩
      · have := hv.bound _ _ h2; omega
      · omega
    · rw [upd_ne _ _ _ hu] at h1
      have := hv.bound _ _ h1; omega
  · by_cases ht : t < x.writers
    · rw [if_pos ht] at hgens
      have := total_upd (gcount x.count) H k' ht
      have := hv.gens
      omega
    · rw [if_neg ht] at hgens
      rw [total_upd_ge _ _ _ (by omega), hgens]; exact hv.gens
  · by_cases ht : t < x.writers
    · rw [if_pos ht] at hpushc
      have := total_upd (ccount x.count) H k' ht
      have := hv.pushc
      omega
    · rw [if_neg ht] at hpushc
      rw [total_upd_ge _ _ _ (by omega), hpushc]; exact hv.pushc
  · intro u h
    have key : g.finished = x.writers → g'.finished = x.writers := by omega
    by_cases hu : u = t
    · subst hu
      rw [upd_self] at h
      rcases hpast h with h | h
      · exact key (hv.past _ h)
      · exact key h
    · rw [upd_ne _ _ _ hu] at h
      exact key (hv.past _ h)
  · intro u h
    by_cases hu : u = t
    · subst hu
      rw [upd_self]
      rcases hended with h1 | ⟨_, h1⟩
      · rw [h1] at h; exact absurd (hv.ended _ h) halive
      · exact h1
    · rw [upd_ne _ _ _ hu]
      apply hv.ended
      rcases hended with h1 | ⟨h1, _⟩
      · rwa [h1] at h
      · rwa [h1, upd_ne _ _ _ hu] at h
  · intro h u hu
    by_cases htm : t = x.main
    · subst htm
      rw [upd_self] at h
      rw [upd_ne _ _ _ (by omega)]
      exact hW rfl h u hu
    · rw [upd_ne _ _ _ (Ne.symm htm)] at h
      have h1 := hv.mainW h
      rw [upd_ne _ _ _ (by rintro rfl; exact halive (h1 _ hu))]
      exact h1 u hu
  · intro h u hu
    by_cases htm : t = x.main
    · subst htm
      rw [upd_self] at h
      rw [upd_ne _ _ _ (by omega)]
      exact hR rfl h u hu
    · rw [upd_ne _ _ _ (Ne.symm htm)] at h
      have h1 := hv.mainR h
      rw [upd_ne _ _ _ (by rintro rfl; exact halive (h1 _ hu))]
      exact h1 u hu

theorem VInv.initial (x : Setup Ch R) : VInv x (start x) Vars.init := by
  have hm : x.main = x.writers + x.readers := rfl
  have hs : ∀ t, start x t = .forTest 0 ∧ t < x.writers ∨ start x t = .pop false ∧ x.writers ≤ t ∧ t < x.main ∨
      start x t = .joinWriters ∧ t = x.main ∨ start x t = .absent ∧ x.main < t := by
    intro t
    simp only [start]
    split
    · simp; omega
    · split
      · simp; omega
      · split
        · simp; omega
        · simp; omega
  have hmain : start x x.main = .joinWriters := by
    rcases hs x.main with ⟨_, h⟩ | ⟨_, _, h⟩ | ⟨h, _⟩ | ⟨_, h⟩
    · omega
    · omega
    · exact h
    · omega
  refine ⟨?_, ?_, ?_, ?_, ?_, ?_, ?_, ?_, ?_, ?_, ?_⟩
  · intro t
    rcases hs t with ⟨h, h1⟩ | ⟨h, h1, h2⟩ | ⟨h, h1⟩ | ⟨h, h1⟩ <;> rw [h] <;> simp only [Role]
    · exact h1
    · exact ⟨h1, h2⟩
    · exact h1
    · exact h1
  · intro a
    rw [total_const (k := 0)]
    · have : one 0 a = 0 := by unfold one; rw [if_neg (by omega)]
      simpa [Vars.init] using this.symm
    · intro u hu
      rcases hs u with ⟨h, _⟩ | ⟨h, _⟩ | ⟨h, _⟩ | ⟨h, _⟩ <;> simp [h, moving]
  · intro t u v h
    rcases hs t with ⟨h1, _⟩ | ⟨h1, _⟩ | ⟨h1, _⟩ | ⟨h1, _⟩ <;> simp [h1, Owned] at h
  · intro t v h
    rcases hs t with ⟨h1, _⟩ | ⟨h1, _⟩ | ⟨h1, _⟩ | ⟨h1, _⟩ <;> simp [h1, Owned] at h
  · rw [total_const (k := 0)]
    · rfl
    · intro u hu
      rcases hs u with ⟨h, _⟩ | ⟨h, _⟩ | ⟨h, _⟩ | ⟨h, _⟩ <;> simp [h, gcount]
  · rw [total_const (k := 0)]
    · rfl
    · intro u hu
      rcases hs u with ⟨h, _⟩ | ⟨h, _⟩ | ⟨h, _⟩ | ⟨h, _⟩ <;> simp [h, ccount]
  · rw [total_const (k := 0)]
    · rfl
    · intro u hu
      rcases hs u with ⟨h, _⟩ | ⟨h, _⟩ | ⟨h, _⟩ | ⟨h, _⟩ <;> simp [h, isDone]
  · intro t h
    rcases hs t with ⟨h1, _⟩ | ⟨h1, _⟩ | ⟨h1, _⟩ | ⟨h1, _⟩ <;> simp [h1, PastR, Past, isDone] at h
  · intro t h; simp [Vars.init] at h
  · intro h; simp [hmain, MainW] at h
  · intro h; simp [hmain, MainR] at h

/-- All writers have finished. -/
theorem VInv.all_done (hv : VInv x H g) (h : g.finished = x.writers) {u : Nat} (hu : u < x.writers) : isDone (H u) = 1 := by
  refine Nat.le_antisymm (isDone_le _) (Nat.not_lt.1 fun h1 => ?_)
  have := total_lt (F := isDone) (G := fun _ => 1) (f := H) (fun u _ => isDone_le _) hu h1
  rw [total_const (F := fun _ => 1) (k := 1) fun _ _ => rfl] at this
  have := hv.fin
  omega

theorem VInv.insert_fresh (hv : VInv x H g) {i v : Nat} (h : H t = .insert i v) : v ∉ g.data := by
  intro hm
  have h1 := hv.sets v
  have hr := hv.role t
  rw [h] at hr
  have hmn : x.main = x.writers + x.readers := rfl
  simp only [Role] at hr
  have h2 := le_total (F := fun k => (moving k).count v) (f := H) (n := x.main) (t := t) (by omega)
  simp only [h] at h2
  have h5 : ∀ w : Nat, List.count w [w] = 1 := fun w => List.count_singleton_self
  have h6 := h5 v
  simp only [show moving (.insert i v) = [v] from rfl] at h2
  have h3 := List.count_pos_iff.2 hm
  have h4 : one g.generator v ≤ 1 := by unfold one; split <;> omega
  omega

theorem VInv.insertD_fresh (hv : VInv x H g) {l v e} (h : H t = .insertD l v e) : v ∉ g.dequeued := by
  intro hm
  have h1 := hv.sets v
  have hr := hv.role t
  rw [h] at hr
  simp only [Role] at hr
  have h2 := le_total (F := fun k => (moving k).count v) (f := H) (n := x.main) (t := t) (by omega)
  simp only [h] at h2
  have h5 : ∀ w : Nat, List.count w [w] = 1 := fun w => List.count_singleton_self
  have h6 := h5 v
  simp only [show moving (.insertD l v e) = [v] from rfl] at h2
  have h3 := List.count_pos_iff.2 hm
  have h4 : one g.generator v ≤ 1 := by unfold one; split <;> omega
  omega

theorem one_succ (n a : Nat) : one (n + 1) a = one n a + if n + 1 = a then 1 else 0 := by
  unfold one
  split <;> split <;> split <;> omega

set_option linter.unusedSimpArgs false in
/-- A step outside the container. -/
theorem VInv.acts (hv : VInv x H g) {l : List Ch} (ha : Acts x t g (H t) g' l k') (her : ∀ l v, H t = .erase l v → v ∈ g.data)
    (hid : ∀ l v e, H t = .insertD l v e → e = true) : VInv x (upd H t k') g' := by
  have hm : x.main = x.writers + x.readers := rfl
  have hr := hv.role t
  generalize hk : H t = k at ha hr
  cases ha with
  | insertFail h => exact absurd h (hv.insert_fresh hk)
  | insertDFail h =>
    rcases h with h | h
    · rw [hid _ _ _ hk] at h; cases h
    · exact absurd h (hv.insertD_fresh hk)
  | over | more _ =>
    simp only [Role] at hr
    have hnw := hr
    apply hv.move <;> simp [hk, hr, hnw, Role, moving, Owned, gcount, ccount, isDone, PastR, Past, MainW, MainR, one_succ, List.count_cons]
    all_goals first | omega | (intro a; omega) | (intro h; exact .inl h) | skip
  | gen =>
    simp only [Role] at hr
    have hnw := hr
    apply hv.move <;> simp [hk, hr, hnw, Role, moving, Owned, gcount, ccount, isDone, PastR, Past, MainW, MainR, one_succ, List.count_cons]
    all_goals first | omega | (intro a; omega) | (intro h; exact .inl h) | skip
  | insert h =>
    simp only [Role] at hr
    have hnw := hr
    apply hv.move <;> simp [hk, hr, hnw, Role, moving, Owned, gcount, ccount, isDone, PastR, Past, MainW, MainR, one_succ, List.count_cons]
    all_goals first | omega | (intro a; omega) | (intro h; exact .inl h) | skip
  | pushed =>
    simp only [Role] at hr
    have hnw := hr
    apply hv.move <;> simp [hk, hr, hnw, Role, moving, Owned, gcount, ccount, isDone, PastR, Past, MainW, MainR, one_succ, List.count_cons]
    all_goals first | omega | (intro a; omega) | (intro h; exact .inl h) | skip
  | report =>
    simp only [Role] at hr
    have hnw := hr
    apply hv.move <;> simp [hk, hr, hnw, Role, moving, Owned, gcount, ccount, isDone, PastR, Past, MainW, MainR, one_succ, List.count_cons]
    all_goals first | omega | (intro a; omega) | (intro h; exact .inl h) | skip
  | erase =>
    simp only [Role] at hr
    have hnw : ¬ t < x.writers := by omega
    have hmem := her _ _ hk
    apply hv.move <;> simp [hk, hr, hnw, Role, moving, Owned, gcount, ccount, isDone, PastR, Past, MainW, MainR, one_succ, List.count_cons]
    all_goals first | omega | (intro a; omega) | (intro h; exact .inl h) | skip
    intro a
    rw [List.count_erase]
    have := List.count_pos_iff.2 hmem
    simp only [beq_iff_eq]
    split
    · rename_i h; subst h; omega
    · omega
  | insertD h =>
    simp only [Role] at hr
    have hnw : ¬ t < x.writers := by omega
    apply hv.move <;> simp [hk, hr, hnw, Role, moving, Owned, gcount, ccount, isDone, PastR, Past, MainW, MainR, one_succ, List.count_cons]
    all_goals first | omega | (intro a; omega) | (intro h; exact .inl h) | skip
  | counted =>
    simp only [Role] at hr
    have hnw : ¬ t < x.writers := by omega
    apply hv.move <;> simp [hk, hr, hnw, Role, moving, Owned, gcount, ccount, isDone, PastR, Past, MainW, MainR, one_succ, List.count_cons]
    all_goals first | omega | (intro a; omega) | (intro h; exact .inl h) | skip
  | see h =>
    simp only [Role] at hr
    have hnw : ¬ t < x.writers := by omega
    apply hv.move <;> simp [hk, h, hr, hnw, Role, moving, Owned, gcount, ccount, isDone, PastR, Past, MainW, MainR, one_succ, List.count_cons]
    all_goals first | omega | (intro a; omega) | (intro h; exact .inl h) | skip
  | again =>
    simp only [Role] at hr
    have hnw : ¬ t < x.writers := by omega
    apply hv.move <;> simp [hk, hr, hnw, Role, moving, Owned, gcount, ccount, isDone, PastR, Past, MainW, MainR, one_succ, List.count_cons]
    all_goals first | omega | (intro a; omega) | (intro h; exact .inl h) | skip
  | leave =>
    simp only [Role] at hr
    apply hv.move <;> simp [hk, hr, Role, moving, Owned, gcount, ccount, isDone, PastR, Past, MainW, MainR, one_succ, List.count_cons]
    all_goals first | omega | (intro a; omega) | (intro h; exact .inl h) | skip
  | joinWriters h =>
    simp only [Role] at hr
    subst hr
    have hnw : ¬ x.main < x.writers := by omega
    apply hv.move <;> simp [hk, hnw, Role, moving, Owned, gcount, ccount, isDone, PastR, Past, MainW, MainR, one_succ, List.count_cons]
    all_goals first | omega | (intro a; omega) | (intro h; exact .inl h) | skip
    intro u hu; exact hv.ended u (h u hu)
  | joinReaders h =>
    simp only [Role] at hr
    subst hr
    have hnw : ¬ x.main < x.writers := by omega
    have hw := hv.mainW (by rw [hk]; trivial)
    apply hv.move <;> simp [hk, hnw, Role, moving, Owned, gcount, ccount, isDone, PastR, Past, MainW, MainR, one_succ, List.count_cons]
    all_goals first | omega | (intro a; omega) | (intro h; exact .inl h) | skip
    intro u hu
    by_cases hu' : u < x.writers
    · exact hw u hu'
    · exact hv.ended u (h u (by omega) hu)
  | check _ | checkFail _ | counts | countsFail _ =>
    simp only [Role] at hr
    subst hr
    have hnw : ¬ x.main < x.writers := by omega
    have hw := hv.mainW (by rw [hk]; trivial)
    have hr2 := hv.mainR (by rw [hk]; trivial)
    apply hv.move <;> simp [hk, hnw, Role, moving, Owned, gcount, ccount, isDone, PastR, Past, MainW, MainR, one_succ, List.count_cons]
    all_goals first | omega | (intro a; omega) | (intro h; exact .inl h) | skip
    all_goals first | exact hw | exact hr2

end

end Verif.Stress
