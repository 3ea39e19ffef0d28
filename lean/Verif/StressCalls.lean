import Verif.StressInv

/-!
# The stress tests: the calls

No further code of /repo is modelled here.
-/

namespace Verif.Stress
open Lin User
open Verif.Example (total total_upd total_upd_ge total_const total_le total_lt le_total total_bound allPut Late)

variable {S P Ch O R O' R' : Type}

/-- How the calls of the program appear in the specification. -/
structure Reads (m : Mach S P Ch O R) (x : Setup Ch R) (so : O → O') (sr : R → R') (push : Nat → O') (pop : O') (rpush : R' → Option Bool)
    (rpop : R' → Option (Option Nat)) (put get : O' → R' → List Nat) : Prop where
  pushes : ∀ t s v s' p' e, m.step t s m.idle (x.push v) = some (s', p', e) → ∃ o, e = some (.inv t o) ∧ so o = push v
  pops : ∀ t s s' p' e, m.step t s m.idle x.pop = some (s', p', e) → ∃ o, e = some (.inv t o) ∧ so o = pop
  pushed : ∀ r, x.pushed r = rpush (sr r)
  popped : ∀ r, x.popped r = rpop (sr r)
  put_push : ∀ v r, put (push v) r = if rpush r = some true then [v] else []
  put_pop : ∀ r, put pop r = []
  get_push : ∀ v r, get (push v) r = []
  get_pop : ∀ r, get pop r = match rpop r with | some (some v) => [v] | _ => []
  inj : ∀ v w, push v = push w → v = w
  ne : ∀ v, push v ≠ pop

/-- The operation called at a place. -/
def opAt (push : Nat → O') (pop : O') : At → O'
  | .push _ v => push v
  | _ => pop

/-- A call of `push( v )` that may have put `v` into the container. -/
def Live (push : Nat → O') (rpush : R' → Option Bool) (b : History O' R') (i v : Nat) : Prop :=
  (∃ u, b[i]? = some (.inv u (push v))) ∧ ∀ j r, Returned b i j r → rpush r = some true

/-- Every value is taken at most once, and only if it may have been put. -/
structure Fair (push : Nat → O') (rpush : R' → Option Bool) (get : O' → R' → List Nat) (b : History O' R') : Prop where
  once : (allPut get b).Nodup
  live : ∀ v ∈ allPut get b, ∃ i, Live push rpush b i v

structure HInv (x : Setup Ch R) (push : Nat → O') (pop : O') (rpush : R' → Option Bool) (rpop : R' → Option (Option Nat)) (put get : O' → R' → List Nat)
    (b : History O' R') (H : Nat → At) (pc : Nat → User.PC At P) (g : Vars) : Prop where
  ops : ∀ (i u : Nat) (o : O'), b[i]? = some (.inv u o) →
    (u < x.writers ∧ ∃ v, o = push v ∧ 1 ≤ v ∧ v ≤ g.generator) ∨ (x.writers ≤ u ∧ u < x.main ∧ o = pop)
  live : ∀ i j v, Live push rpush b i v → Live push rpush b j v → i = j
  fresh : ∀ t i v, H t = .insert i v ∨ pc t = .at (.push i v) → ∀ j, ¬ Live push rpush b j v
  erased : ∀ t l v e, H t = .insertD l v e → e = true
  taken : ∀ a, (allPut get b).count a = g.dequeued.count a + total (fun k => (taken k).count a) H x.main
  puts : (allPut put b).length = total (pcount x.count) H x.writers
  popc : (allPut get b).length = g.pop_count + total owed H x.main
  late : ∀ t p, pc t = .call (.pop true) p → ∀ i o, Pending b t i o → Late push b i
  final : ∀ t, x.writers ≤ t → isDone (H t) = 1 →
    ∃ (i j : Nat) (r : R'), b[i]? = some (.inv t pop) ∧ Returned b i j r ∧ rpop r = some none ∧ Late push b i

section
variable {m : Mach S P Ch O R} {x : Setup Ch R} {so : O → O'} {sr : R → R'} {push : Nat → O'} {pop : O'} {rpush : R' → Option Bool}
  {rpop : R' → Option (Option Nat)} {put get : O' → R' → List Nat} {b : History O' R'} {H : Nat → At} {pc : Nat → User.PC At P} {g g' : Vars} {t : Nat}

theorem Reads.user (hr : Reads m x so sr push pop rpush rpop put get) : User.Reads m (script x) so (opAt push pop) where
  call k ch hk t s s' p' e h := by
    cases k <;> simp only [script] at hk
    case push i v => cases hk; exact hr.pushes _ _ _ _ _ _ h
    case pop l => cases hk; exact hr.pops _ _ _ _ _ h
    all_goals cases hk

theorem calls_cases {k : At} (h : (script x).calls k ≠ none) : (∃ i v, k = .push i v) ∨ ∃ l, k = .pop l := by
  cases k <;> simp [script] at h ⊢

theorem calls_none {k : At} (h : (script x).calls k = none) : (∀ i v, k ≠ .push i v) ∧ ∀ l, k ≠ .pop l := by
  cases k <;> simp [script] at h ⊢

theorem HInv.initial (x : Setup Ch R) : HInv (P := P) x push pop rpush rpop put get [] (start x) (fun t => .at (start x t)) Vars.init := by
  have hm : x.main = x.writers + x.readers := rfl
  have hs : ∀ t, start x t = .forTest 0 ∨ start x t = .pop false ∨ start x t = .joinWriters ∨ start x t = .absent := by
    intro t
    simp only [start]
    split
    · simp
    · split
      · simp
      · split <;> simp
  refine ⟨by simp, ?_, ?_, ?_, ?_, ?_, ?_, by simp, ?_⟩
  · rintro i j v ⟨⟨u, h⟩, _⟩; simp at h
  · rintro t i v h
    rcases hs t with h1 | h1 | h1 | h1 <;> simp [h1] at h
  · intro t l v e h
    rcases hs t with h1 | h1 | h1 | h1 <;> simp [h1] at h
  · intro a
    rw [total_const (k := 0)]
    · simp [allPut, calls, Vars.init]
    · intro u _
      rcases hs u with h1 | h1 | h1 | h1 <;> simp [h1, Stress.taken]
  · rw [total_const (k := 0)]
    · simp [allPut, calls]
    · intro u _
      rcases hs u with h1 | h1 | h1 | h1 <;> simp [h1, pcount]
  · rw [total_const (k := 0)]
    · simp [allPut, calls, Vars.init]
    · intro u _
      rcases hs u with h1 | h1 | h1 | h1 <;> simp [h1, owed]
  · intro t _ h
    rcases hs t with h1 | h1 | h1 | h1 <;> simp [h1, isDone] at h

/-- A value that has been popped and not erased is in `data`. -/
theorem HInv.erase_mem (hv : VInv x H g) (hh : HInv x push pop rpush rpop put get b H pc g) (hinj : ∀ v w, push v = push w → v = w) (hne : ∀ v, push v ≠ pop)
    (hf : Fair push rpush get b) {l v} (hk : H t = .erase l v) : v ∈ g.data := by
  have hr := hv.role t
  rw [hk] at hr
  simp only [Role] at hr
  have h1 := hh.taken v
  have h2 := List.nodup_iff_count_le_one.1 hf.once v
  have hself : ∀ w : Nat, List.count w [w] = 1 := fun w => List.count_singleton_self
  have ht : (fun k => (Stress.taken k).count v) (H t) = 1 := by
    simp only [hk, show Stress.taken (.erase l v) = [v] from rfl]; exact hself v
  have ht' : (fun k => (moving k).count v) (H t) = 0 := by
    simp only [hk, show moving (.erase l v) = [] from rfl]; rfl
  have h3 := le_total (F := fun k => (Stress.taken k).count v) (f := H) hr.2
  simp only at ht ht'
  rw [ht] at h3
  have hmem : v ∈ allPut get b := List.count_pos_iff.1 (by omega)
  obtain ⟨i, hl⟩ := hf.live v hmem
  obtain ⟨⟨u, hu⟩, -⟩ := id hl
  have hb : 1 ≤ v ∧ v ≤ g.generator := by
    rcases hh.ops _ _ _ hu with ⟨_, w, h4, h5⟩ | ⟨_, _, h4⟩
    · rw [hinj _ _ h4]; exact h5
    · exact absurd h4 (hne v)
  have h4 : total (fun k => (moving k).count v) H x.main < total (fun k => (Stress.taken k).count v) H x.main := by
    refine total_lt (t := t) (fun w _ => ?_) hr.2 (by rw [ht, ht']; omega)
    generalize hw : H w = k
    cases k with
    | insert j a =>
      have : a ≠ v := by rintro rfl; exact hh.fresh w j a (.inl hw) i hl
      simp [moving, Stress.taken, this]
    | _ => simp [moving, Stress.taken]
  have h5 := hv.sets v
  have h6 : one g.generator v = 1 := by unfold one; rw [if_pos hb]
  exact List.count_pos_iff.1 (by omega)

/-- A step outside the container. -/
theorem HInv.acts (hv : VInv x H g) (hh : HInv x push pop rpush rpop put get b H pc g) (hinj : ∀ v w, push v = push w → v = w) (hne : ∀ v, push v ≠ pop)
    (hf : Fair push rpush get b) {k k' : At} {l : List Ch} (hpc : pc t = .at k) (hH : H t = k) (ha : Acts x t g k g' l k') :
    HInv x push pop rpush rpop put get b (upd H t k') (upd pc t (.at k')) g' := by
  have hm : x.main = x.writers + x.readers := rfl
  have hr := hv.role t
  rw [hH] at hr
  have hmk : (g.generator ≤ g'.generator ∧ (∀ i v, k' = .insert i v ∨ k' = .push i v → v = g.generator + 1 ∨ k = .insert i v) ∧
      (∀ l v e, k' = .insertD l v e → e = true) ∧
      (∀ a, g'.dequeued.count a + (Stress.taken k').count a = g.dequeued.count a + (Stress.taken k).count a) ∧
      (t < x.writers → pcount x.count k' = pcount x.count k) ∧
      (g'.pop_count + owed k' = g.pop_count + owed k) ∧ Role x t k' ∧ (x.writers ≤ t → isDone k' = 1 → isDone k = 1)) →
      HInv x push pop rpush rpop put get b (upd H t k') (upd pc t (.at k')) g' := by
    rintro ⟨a1, a2, a3, a4, a5, a6, a7, a8⟩
    refine ⟨?_, hh.live, ?_, ?_, ?_, ?_, ?_, ?_, ?_⟩
    · intro i u o h
      rcases hh.ops _ _ _ h with ⟨h1, v, h2, h3, h4⟩ | h1
      · exact .inl ⟨h1, v, h2, h3, by omega⟩
      · exact .inr h1
    · intro u i v h j hl
      by_cases hu : u = t
      · subst hu
        rw [upd_self, upd_self] at h
        rcases a2 i v (h.imp id (by rintro ⟨⟩; rfl)) with rfl | rfl
        · obtain ⟨⟨w, hw⟩, -⟩ := hl
          rcases hh.ops _ _ _ hw with ⟨_, y, h4, h5⟩ | ⟨_, _, h4⟩
          · have := hinj _ _ h4; omega
          · exact absurd h4 (hne _)
        · exact hh.fresh u i v (.inl hH) j hl
      · rw [upd_ne _ _ _ hu, upd_ne _ _ _ hu] at h
        exact hh.fresh u i v h j hl
    · intro u l v e h
      by_cases hu : u = t
      · subst hu; rw [upd_self] at h; exact a3 _ _ _ h
      · rw [upd_ne _ _ _ hu] at h; exact hh.erased u _ _ _ h
    · intro a
      have h1 := hh.taken a
      have h2 := a4 a
      by_cases ht : t < x.main
      · have := total_upd (fun k => (Stress.taken k).count a) H k' ht
        rw [hH] at this
        omega
      · rw [total_upd_ge _ _ _ (by omega)]
        rw [taken_role a7 (by omega), taken_role hr (by omega)] at h2
        omega
    · have h1 := hh.puts
      by_cases ht : t < x.writers
      · have := total_upd (pcount x.count) H k' ht
        rw [hH, a5 ht] at this
        omega
      · rw [total_upd_ge _ _ _ (by omega)]; exact h1
    · have h1 := hh.popc
      by_cases ht : t < x.main
      · have := total_upd owed H k' ht
        rw [hH] at this
        omega
      · rw [total_upd_ge _ _ _ (by omega)]
        rw [owed_role a7 (by omega), owed_role hr (by omega)] at a6
        omega
    · intro u p h
      by_cases hu : u = t
      · subst hu; rw [upd_self] at h; cases h
      · rw [upd_ne _ _ _ hu] at h; exact hh.late u p h
    · intro u h h1
      by_cases hu : u = t
      · subst hu; rw [upd_self] at h1; exact hh.final u h (by rw [hH]; exact a8 h h1)
      · rw [upd_ne _ _ _ hu] at h1; exact hh.final u h h1
  cases ha with
  | insertFail h => exact absurd h (hv.insert_fresh hH)
  | insertDFail h =>
    rcases h with h | h
    · rw [hh.erased _ _ _ _ hH] at h; cases h
    · exact absurd h (hv.insertD_fresh hH)
  | erase =>
    have := hh.erase_mem hv hinj hne hf hH
    apply hmk
    simp only [Role] at hr
    simp [Stress.taken, owed, pcount, isDone, Role, this, hr]
  | _ =>
    apply hmk
    simp only [Role] at hr
    simp [Stress.taken, owed, pcount, isDone, Role, hr, List.count_cons]
    all_goals omega

/-- Once the writers have finished, they are in no call. -/
theorem all_returned (hv : VInv x H g) (hh : HInv x push pop rpush rpop put get b H pc g) (hne : ∀ v, push v ≠ pop) {C : MConf (S × Vars) (User.PC At P)}
    (htd : Tidy m (script x) (opAt push pop) b C) (hHC : ∀ t, H t = (C.pc t).here) (hd : g.finished = x.writers)
    {k u v : Nat} (hk : b[k]? = some (.inv u (push v))) : ∃ j r, Returned b k j r := by
  have hu : u < x.writers := by
    rcases hh.ops _ _ _ hk with ⟨h1, _⟩ | ⟨_, _, h1⟩
    · exact h1
    · exact absurd h1 (hne v)
  have h1 := hv.all_done hd hu
  rcases htd.split k u _ hk with h2 | h2
  · rw [hHC] at h1
    generalize hp : C.pc u = p at h1
    cases p with
    | «at» a => exact absurd h2 (htd.rest u a hp _ _)
    | call a q =>
      rcases calls_cases (htd.busy u a q hp).2.1 with ⟨i, w, rfl⟩ | ⟨l, rfl⟩ <;> simp [PC.here, isDone] at h1
  · exact h2

/-- Invocation. -/
theorem HInv.invoke (hv : VInv x H g) (hh : HInv x push pop rpush rpop put get b H pc g) (hinj : ∀ v w, push v = push w → v = w) (hne : ∀ v, push v ≠ pop)
    {C : MConf (S × Vars) (User.PC At P)} (htd : Tidy m (script x) (opAt push pop) b C) (hHC : ∀ t, H t = (C.pc t).here) (hCpc : C.pc = pc)
    {k : At} (hpc : pc t = .at k) (hc : (script x).calls k ≠ none) {p' : P} :
    HInv x push pop rpush rpop put get (b ++ [.inv t (opAt push pop k)]) H (upd pc t (.call k p')) g := by
  have hm : x.main = x.writers + x.readers := rfl
  have hH : H t = k := by rw [hHC, hCpc, hpc]; rfl
  have hr := hv.role t
  rw [hH] at hr
  have hsnoc : ∀ {i v}, Live push rpush (b ++ [.inv t (opAt push pop k)]) i v → Live push rpush b i v ∨ (i = b.length ∧ ∃ j, k = .push j v) := by
    rintro i v ⟨⟨u, h1⟩, h2⟩
    rw [getElem?_snoc] at h1
    split at h1
    · exact .inl ⟨⟨u, h1⟩, fun j r h3 => h2 j r h3.snoc⟩
    · split at h1
      · rename_i hl
        refine .inr ⟨hl, ?_⟩
        rcases calls_cases hc with ⟨j, w, rfl⟩ | ⟨l, rfl⟩
        · simp only [opAt, Option.some.injEq, Event.inv.injEq] at h1
          rw [hinj _ _ h1.2]; exact ⟨j, rfl⟩
        · simp only [opAt, Option.some.injEq, Event.inv.injEq] at h1
          exact absurd h1.2.symm (hne v)
      · cases h1
  have hlate : ∀ i, (g.finished = x.writers) → Late push b i → Late push (b ++ [.inv t (opAt push pop k)]) i := by
    intro i hd h
    refine h.snoc fun u v h1 => ?_
    rcases calls_cases hc with ⟨j, w, rfl⟩ | ⟨l, rfl⟩
    · simp only [Role] at hr
      have := hv.all_done hd hr
      rw [hH] at this
      simp [isDone] at this
    · simp only [opAt, Event.inv.injEq] at h1
      exact hne v h1.2.symm
  refine ⟨?_, ?_, ?_, hh.erased, ?_, ?_, ?_, ?_, ?_⟩
  · intro i u o h
    rw [getElem?_snoc] at h
    split at h
    · exact hh.ops _ _ _ h
    · split at h
      · cases h
        rcases calls_cases hc with ⟨j, w, rfl⟩ | ⟨l, rfl⟩
        · exact .inl ⟨hr, w, rfl, hv.bound t w (by rw [hH]; rfl)⟩
        · exact .inr ⟨hr.1, hr.2, rfl⟩
      · cases h
  · intro i j v h1 h2
    rcases hsnoc h1 with h3 | ⟨h3, a, rfl⟩ <;> rcases hsnoc h2 with h4 | ⟨h4, c, h5⟩
    · exact hh.live _ _ _ h3 h4
    · subst h5
      exact absurd h3 (hh.fresh t _ v (.inr hpc) _)
    · exact absurd h4 (hh.fresh t _ v (.inr hpc) _)
    · omega
  · intro u i v h j hl
    rcases hsnoc hl with h1 | ⟨_, a, rfl⟩
    · by_cases hu : u = t
      · subst hu
        rw [upd_self] at h
        rcases h with h | h
        · exact hh.fresh u i v (.inl h) j h1
        · cases h
      · rw [upd_ne _ _ _ hu] at h
        exact hh.fresh u i v h j h1
    · have ho : Owned (H u) v := by
        rcases h with h | h
        · rw [h]; rfl
        · have hu : u ≠ t := by rintro rfl; rw [upd_self] at h; cases h
          rw [upd_ne _ _ _ hu] at h
          rw [hHC, hCpc, h]; rfl
      have := hv.own u t v ho (by rw [hH]; rfl)
      subst this
      rcases h with h | h
      · rw [hH] at h; cases h
      · rw [upd_self] at h; cases h
  · intro a
    rw [allPut, calls_snoc_inv]; exact hh.taken a
  · rw [allPut, calls_snoc_inv]; exact hh.puts
  · rw [allPut, calls_snoc_inv]; exact hh.popc
  · intro u p h i o hp
    by_cases hu : u = t
    · subst hu
      rw [upd_self] at h
      cases h
      obtain ⟨rfl, -⟩ := pending_snoc_eq hp rfl
      have hd := hv.past u (.inl (by rw [hH]; rfl))
      refine hlate _ hd fun w u' v hw => ?_
      obtain ⟨j, r, h1⟩ := all_returned hv hh hne htd hHC hd hw
      exact ⟨j, r, h1, h1.lt.2⟩
    · rw [upd_ne _ _ _ hu] at h
      have hd := hv.past u (.inl (by rw [hHC, hCpc, h]; rfl))
      exact hlate _ hd (hh.late u p h i o (pending_unsnoc hp (by simp [Event.tid, Ne.symm hu])))
  · intro u h1 h2
    obtain ⟨i, j, r, h3, h4, h5, h6⟩ := hh.final u h1 h2
    refine ⟨i, j, r, ?_, h4.snoc, h5, hlate _ (hv.past u (.inr ⟨h1, h2⟩)) h6⟩
    rw [List.getElem?_append_left (lt_of_getElem? h3)]; exact h3

/-- A step inside a call. -/
theorem HInv.inside (hh : HInv x push pop rpush rpop put get b H pc g) {k : At} {p p' : P} (hpc : pc t = .call k p) :
    HInv x push pop rpush rpop put get b H (upd pc t (.call k p')) g := by
  refine ⟨hh.ops, hh.live, ?_, hh.erased, hh.taken, hh.puts, hh.popc, ?_, hh.final⟩
  · intro u i v h
    by_cases hu : u = t
    · subst hu
      rw [upd_self] at h
      rcases h with h | h
      · exact hh.fresh u i v (.inl h)
      · cases h
    · rw [upd_ne _ _ _ hu] at h
      exact hh.fresh u i v h
  · intro u q h
    by_cases hu : u = t
    · subst hu
      rw [upd_self] at h
      cases h
      exact hh.late u _ hpc
    · rw [upd_ne _ _ _ hu] at h; exact hh.late u q h

/-- What the result of a call leads to. -/
theorem next_cases (hrd : Reads m x so sr push pop rpush rpop put get) {k : At} (hc : (script x).calls k ≠ none) (r : R) :
    (∃ i v, k = .push i v ∧ ((rpush (sr r) = some true ∧ (script x).next k r = .pushed i) ∨
      (rpush (sr r) = some false ∧ (script x).next k r = .push i v) ∨ (rpush (sr r) = none ∧ (script x).next k r = .threw i))) ∨
    (∃ l, k = .pop l ∧ ((∃ v, rpop (sr r) = some (some v) ∧ (script x).next k r = .erase l v) ∨
      (rpop (sr r) = some none ∧ (script x).next k r = if l then .leave else .load) ∨ (rpop (sr r) = none ∧ (script x).next k r = .threw 0))) := by
  rcases calls_cases hc with ⟨i, v, rfl⟩ | ⟨l, rfl⟩
  · refine .inl ⟨i, v, rfl, ?_⟩
    simp only [script, hrd.pushed]
    cases rpush (sr r) with
    | none => simp
    | some a => cases a <;> simp
  · refine .inr ⟨l, rfl, ?_⟩
    simp only [script, hrd.popped]
    cases rpop (sr r) with
    | none => simp
    | some a => cases a <;> simp

theorem VInv.finish (hv : VInv x H g) (hrd : Reads m x so sr push pop rpush rpop put get) {k : At} (hH : H t = k) (hc : (script x).calls k ≠ none) (r : R) :
    VInv x (upd H t ((script x).next k r)) g := by
  have hm : x.main = x.writers + x.readers := rfl
  have hr := hv.role t
  rw [hH] at hr
  rcases next_cases hrd hc r with ⟨i, v, rfl, h⟩ | ⟨l, rfl, h⟩
  · simp only [Role] at hr
    rcases h with ⟨_, h⟩ | ⟨_, h⟩ | ⟨_, h⟩ <;> rw [h] <;> apply hv.move <;>
      simp [hH, hr, Role, moving, Owned, gcount, ccount, isDone, PastR, Past, MainW, MainR] <;> omega
  · simp only [Role] at hr
    have hnw : ¬ t < x.writers := by omega
    rcases h with ⟨v, _, h⟩ | ⟨_, h⟩ | ⟨_, h⟩ <;> rw [h]
    · apply hv.move <;> simp [hH, hr, hnw, Role, moving, Owned, PastR, Past, isDone, MainW, MainR]
      intro h; exact .inl h
    · cases l <;> apply hv.move <;> simp [hH, hr, hnw, Role, moving, Owned, PastR, Past, isDone, MainW, MainR]
    · apply hv.move <;> simp [hH, hr, hnw, Role, moving, Owned, PastR, Past, isDone, MainW, MainR]

/-- Response. -/
theorem HInv.respond (hv : VInv x H g) (hh : HInv x push pop rpush rpop put get b H pc g) (hrd : Reads m x so sr push pop rpush rpop put get)
    {k : At} {p : P} (hpc : pc t = .call k p) (hH : H t = k) (hc : (script x).calls k ≠ none) {i : Nat} (hpe : Pending b t i (opAt push pop k)) (r : R) :
    HInv x push pop rpush rpop put get (b ++ [.res t (sr r)]) (upd H t ((script x).next k r)) (upd pc t (.at ((script x).next k r))) g := by
  have hm : x.main = x.writers + x.readers := rfl
  have hr := hv.role t
  rw [hH] at hr
  have hv' := hv.finish hrd hH hc r
  have hr' := hv'.role t
  rw [upd_self] at hr'
  have hinv : ∀ {j u : Nat} {o : O'}, (b ++ [.res t (sr r)])[j]? = some (Event.inv u o) → b[j]? = some (Event.inv u o) := by
    intro j u o h
    rw [getElem?_snoc] at h
    split at h
    · exact h
    · split at h <;> cases h
  have hold : ∀ {j v}, Live push rpush (b ++ [.res t (sr r)]) j v → Live push rpush b j v ∧ (j = i → rpush (sr r) = some true) := by
    rintro j v ⟨⟨u, h1⟩, h2⟩
    refine ⟨⟨⟨u, hinv h1⟩, fun n r' h3 => h2 n r' h3.snoc⟩, ?_⟩
    rintro rfl
    exact h2 _ _ (hpe.returned _)
  have hlate : ∀ n, Late push b n → Late push (b ++ [.res t (sr r)]) n := fun n h => h.snoc (by simp)
  have hperm := calls_snoc_res hpe (sr r)
  have hget : (allPut get (b ++ [.res t (sr r)])).Perm (get (opAt push pop k) (sr r) ++ allPut get b) := hperm.flatMap_right _
  have hput : (allPut put (b ++ [.res t (sr r)])).Perm (put (opAt push pop k) (sr r) ++ allPut put b) := hperm.flatMap_right _
  have hnx := next_cases hrd hc r
  generalize (script x).next k r = k' at *
  refine ⟨fun j u o h => hh.ops _ _ _ (hinv h), fun j n v h1 h2 => hh.live _ _ _ (hold h1).1 (hold h2).1, ?_, ?_, ?_, ?_, ?_, ?_, ?_⟩
  · intro u a v h j hl
    by_cases hu : u = t
    · subst hu
      rw [upd_self, upd_self] at h
      have h' : k' = .insert a v ∨ k' = .push a v := h.imp id (by rintro ⟨⟩; rfl)
      rcases hnx with ⟨a', v', rfl, h1⟩ | ⟨l, rfl, h1⟩
      · rcases h1 with ⟨h2, rfl⟩ | ⟨h2, rfl⟩ | ⟨h2, rfl⟩
        · simp at h'
        · simp only [reduceCtorEq, At.push.injEq, false_or] at h'
          obtain ⟨rfl, rfl⟩ := h'
          have hl' := hold hl
          have hli : Live push rpush b i v' := ⟨⟨u, hpe.1⟩, fun n r' h3 => absurd h3 (hpe.not_returned _ _)⟩
          have := hl'.2 (hh.live _ _ _ hl'.1 hli)
          rw [h2] at this
          cases this
        · simp at h'
      · rcases h1 with ⟨_, h2, rfl⟩ | ⟨h2, rfl⟩ | ⟨h2, rfl⟩
        · simp at h'
        · cases l <;> simp at h'
        · simp at h'
    · rw [upd_ne _ _ _ hu, upd_ne _ _ _ hu] at h
      exact hh.fresh u a v h j (hold hl).1
  · intro u l v e h
    by_cases hu : u = t
    · subst hu
      rw [upd_self] at h
      rcases hnx with ⟨a', v', rfl, h1⟩ | ⟨l, rfl, h1⟩
      · rcases h1 with ⟨h2, rfl⟩ | ⟨h2, rfl⟩ | ⟨h2, rfl⟩ <;> simp at h
      · rcases h1 with ⟨_, h2, rfl⟩ | ⟨h2, rfl⟩ | ⟨h2, rfl⟩
        · simp at h
        · cases l <;> simp at h
        · simp at h
    · rw [upd_ne _ _ _ hu] at h
      exact hh.erased u _ _ _ h
  · intro a
    rw [hget.count_eq, List.count_append, hh.taken a]
    have hnone : (get (opAt push pop k) (sr r)).count a + (Stress.taken k).count a = (Stress.taken k').count a := by
      rcases hnx with ⟨a', v', rfl, h1⟩ | ⟨l, rfl, h1⟩
      · simp only [opAt, hrd.get_push]
        rcases h1 with ⟨h2, rfl⟩ | ⟨h2, rfl⟩ | ⟨h2, rfl⟩ <;> simp [Stress.taken]
      · simp only [opAt, hrd.get_pop]
        rcases h1 with ⟨_, h2, rfl⟩ | ⟨h2, rfl⟩ | ⟨h2, rfl⟩
        · simp [Stress.taken, h2]
        · cases l <;> simp [Stress.taken, h2]
        · simp [Stress.taken, h2]
    by_cases ht : t < x.main
    · have := total_upd (fun k => (Stress.taken k).count a) H k' ht
      rw [hH] at this
      omega
    · rw [taken_role hr (by omega), taken_role hr' (by omega)] at hnone
      rw [total_upd_ge _ _ _ (by omega)]
      simp only [List.count_nil] at hnone
      omega
  · rw [hput.length_eq, List.length_append, hh.puts]
    by_cases ht : t < x.writers
    · have := total_upd (pcount x.count) H k' ht
      rw [hH] at this
      have hone : (put (opAt push pop k) (sr r)).length + pcount x.count k = pcount x.count k' := by
        rcases hnx with ⟨a', v', rfl, h1⟩ | ⟨l, rfl, h1⟩
        · simp only [opAt, hrd.put_push]
          rcases h1 with ⟨h2, rfl⟩ | ⟨h2, rfl⟩ | ⟨h2, rfl⟩ <;> simp [pcount, h2]
          omega
        · simp only [Role] at hr; omega
      omega
    · rw [total_upd_ge _ _ _ (by omega)]
      rcases hnx with ⟨a', v', rfl, h1⟩ | ⟨l, rfl, h1⟩
      · exact absurd hr ht
      · simp [opAt, hrd.put_pop]
  · rw [hget.length_eq, List.length_append, hh.popc]
    have hone : (get (opAt push pop k) (sr r)).length + owed k = owed k' := by
      rcases hnx with ⟨a', v', rfl, h1⟩ | ⟨l, rfl, h1⟩
      · simp only [opAt, hrd.get_push]
        rcases h1 with ⟨h2, rfl⟩ | ⟨h2, rfl⟩ | ⟨h2, rfl⟩ <;> simp [owed]
      · simp only [opAt, hrd.get_pop]
        rcases h1 with ⟨_, h2, rfl⟩ | ⟨h2, rfl⟩ | ⟨h2, rfl⟩
        · simp [owed, h2]
        · cases l <;> simp [owed, h2]
        · simp [owed, h2]
    by_cases ht : t < x.main
    · have := total_upd owed H k' ht
      rw [hH] at this
      omega
    · rw [owed_role hr (by omega), owed_role hr' (by omega)] at hone
      rw [total_upd_ge _ _ _ (by omega)]
      omega
  · intro u q h n o hp
    by_cases hu : u = t
    · subst hu; rw [upd_self] at h; cases h
    · rw [upd_ne _ _ _ hu] at h
      exact hlate _ (hh.late u q h n o (pending_unsnoc hp (by simp [Event.tid, Ne.symm hu])))
  · intro u h1 h2
    by_cases hu : u = t
    · subst hu
      rw [upd_self] at h2
      rcases hnx with ⟨a', v', rfl, h3⟩ | ⟨l, rfl, h3⟩
      · simp only [Role] at hr; omega
      · rcases h3 with ⟨_, h4, rfl⟩ | ⟨h4, rfl⟩ | ⟨h4, rfl⟩
        · simp [isDone] at h2
        · cases l
          · simp [isDone] at h2
          · refine ⟨i, b.length, sr r, ?_, hpe.returned _, h4, hlate _ (hh.late u p hpc i _ hpe)⟩
            rw [List.getElem?_append_left (lt_of_getElem? hpe.1)]; exact hpe.1
        · simp [isDone] at h2
    · rw [upd_ne _ _ _ hu] at h2
      obtain ⟨n, j, r', h3, h4, h5, h6⟩ := hh.final u h1 h2
      refine ⟨n, j, r', ?_, h4.snoc, h5, hlate _ h6⟩
      rw [List.getElem?_append_left (lt_of_getElem? h3)]; exact h3

end

end Verif.Stress
