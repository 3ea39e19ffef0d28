import Verif.Lin

/-!
# Sequential histories (C72)

A container used by one thread at a time. No code of /repo is modelled here.
-/

namespace Verif.Lin

variable {Op Ret : Type} {S : Spec Op Ret}

/-- The history of calls made one after the other: thread, operation, result. -/
def sequential (cs : List (Nat × Op × Ret)) : History Op Ret := cs.flatMap fun c => [.inv c.1 c.2.1, .res c.1 c.2.2]

/-- Operations with these results take the sequential object from `σ` to `σ'`. -/
inductive Does (S : Spec Op Ret) : S.State → List (Op × Ret) → S.State → Prop where
  | nil (σ) : Does S σ [] σ
  | cons {σ o r σ' l σ''} : S.step σ o r σ' → Does S σ' l σ'' → Does S σ ((o, r) :: l) σ''

theorem Does.ends {σ σ' : S.State} (h : Does S σ [] σ') : σ' = σ := by cases h; rfl

theorem Does.first {σ σ' : S.State} {p : Op × Ret} {l : List (Op × Ret)} (h : Does S σ (p :: l) σ') : ∃ σ₁, S.step σ p.1 p.2 σ₁ ∧ Does S σ₁ l σ' := by
  cases h with
  | cons h1 h2 => exact ⟨_, h1, h2⟩

theorem Does.append {σ σ'' : S.State} {l l' : List (Op × Ret)} (h : Does S σ (l ++ l') σ'') : ∃ σ', Does S σ l σ' ∧ Does S σ' l' σ'' := by
  induction l generalizing σ with
  | nil => exact ⟨σ, .nil _, h⟩
  | cons x l ih =>
    cases h with
    | cons h1 h2 =>
      obtain ⟨σ', h3, h4⟩ := ih h2
      exact ⟨σ', .cons h1 h3, h4⟩

theorem Run.does {σ σ' : S.State} {L : List (Nat × Op × Ret)} (h : Run S σ L σ') : Does S σ (L.map (·.2)) σ' := by
  induction h with
  | nil => exact .nil _
  | cons h1 _ ih => exact .cons h1 ih

/-- The calls with their positions in the history, the first one at `k`. -/
def placed (k : Nat) : List (Nat × Op × Ret) → List (Nat × Op × Ret)
  | [] => []
  | c :: cs => (k, c.2) :: placed (k + 2) cs

theorem placed_snd (k : Nat) (cs : List (Nat × Op × Ret)) : (placed k cs).map (·.2) = cs.map (·.2) := by
  induction cs generalizing k with
  | nil => rfl
  | cons c cs ih => simp [placed, ih]

theorem Does.run {σ σ' : S.State} {k : Nat} {cs : List (Nat × Op × Ret)} (h : Does S σ (cs.map (·.2)) σ') : Run S σ (placed k cs) σ' := by
  induction cs generalizing σ k with
  | nil => cases h; exact .nil _
  | cons c cs ih =>
    obtain ⟨t, o, r⟩ := c
    cases h with
    | cons h1 h2 => exact .cons h1 (ih h2)

theorem mem_placed {k : Nat} {cs : List (Nat × Op × Ret)} {x : Nat × Op × Ret} :
    x ∈ placed k cs ↔ ∃ i c, cs[i]? = some c ∧ x = (k + 2 * i, c.2) := by
  induction cs generalizing k with
  | nil => simp [placed]
  | cons c cs ih =>
    simp only [placed, List.mem_cons, ih]
    constructor
    · rintro (rfl | ⟨i, d, h1, rfl⟩)
      · exact ⟨0, c, rfl, rfl⟩
      · exact ⟨i + 1, d, by simpa using h1, by rw [show k + 2 * (i + 1) = k + 2 + 2 * i by omega]⟩
    · rintro ⟨i, d, h1, rfl⟩
      cases i with
      | zero => simp at h1; subst h1; exact .inl rfl
      | succ i => exact .inr ⟨i, d, by simpa using h1, by rw [show k + 2 * (i + 1) = k + 2 + 2 * i by omega]⟩

theorem placed_sorted (k : Nat) (cs : List (Nat × Op × Ret)) : (placed k cs).Pairwise fun a b => a.1 < b.1 := by
  induction cs generalizing k with
  | nil => exact .nil
  | cons c cs ih =>
    refine .cons (fun x hx => ?_) (ih _)
    obtain ⟨i, d, -, rfl⟩ := mem_placed.1 hx
    show k < k + 2 + 2 * i
    omega

theorem sequential_inv (cs : List (Nat × Op × Ret)) (i : Nat) : (sequential cs)[2 * i]? = cs[i]?.map fun c => .inv c.1 c.2.1 := by
  induction cs generalizing i with
  | nil => rfl
  | cons c cs ih =>
    cases i with
    | zero => rfl
    | succ i =>
      rw [show 2 * (i + 1) = 2 * i + 1 + 1 by omega]
      exact ih i

theorem sequential_res (cs : List (Nat × Op × Ret)) (i : Nat) : (sequential cs)[2 * i + 1]? = cs[i]?.map fun c => .res c.1 c.2.2 := by
  induction cs generalizing i with
  | nil => rfl
  | cons c cs ih =>
    cases i with
    | zero => rfl
    | succ i =>
      rw [show 2 * (i + 1) + 1 = 2 * i + 1 + 1 + 1 by omega]
      exact ih i

theorem sequential_position {cs : List (Nat × Op × Ret)} {i t : Nat} {o : Op} (h : (sequential cs)[i]? = some (.inv t o)) :
    ∃ m r, i = 2 * m ∧ cs[m]? = some (t, o, r) := by
  rcases Nat.mod_two_eq_zero_or_one i with hi | hi
  · obtain ⟨m, rfl⟩ : ∃ m, i = 2 * m := ⟨i / 2, by omega⟩
    rw [sequential_inv, Option.map_eq_some_iff] at h
    obtain ⟨⟨t', o', r⟩, h1, h2⟩ := h
    cases h2
    exact ⟨m, r, rfl, h1⟩
  · obtain ⟨m, rfl⟩ : ∃ m, i = 2 * m + 1 := ⟨i / 2, by omega⟩
    rw [sequential_res, Option.map_eq_some_iff] at h
    obtain ⟨c, _, h2⟩ := h
    cases h2

theorem sequential_returned {cs : List (Nat × Op × Ret)} {i j : Nat} {r : Ret} :
    Returned (sequential cs) i j r ↔ ∃ m t o, i = 2 * m ∧ j = 2 * m + 1 ∧ cs[m]? = some (t, o, r) := by
  constructor
  · rintro ⟨t, o, h1, h2, h3, h4⟩
    obtain ⟨m, r', rfl, h5⟩ := sequential_position h1
    have h6 : (sequential cs)[2 * m + 1]? = some (.res t r') := by rw [sequential_res, h5]; rfl
    have h7 : j = 2 * m + 1 := by
      apply Classical.byContradiction
      intro hj
      exact h4 (2 * m + 1) _ (by omega) (by omega) h6 rfl
    subst h7
    rw [h6] at h3
    cases h3
    exact ⟨m, t, o, rfl, rfl, h5⟩
  · rintro ⟨m, t, o, rfl, rfl, h⟩
    exact ⟨t, o, by rw [sequential_inv, h]; rfl, by omega, by rw [sequential_res, h]; rfl, fun k e h1 h2 => by omega⟩

/-- Lists in order that have the same elements are equal. -/
theorem eq_placed {k : Nat} {cs L : List (Nat × Op × Ret)} (hs : L.Pairwise fun a b => a.1 < b.1) (hm : ∀ x, x ∈ L ↔ x ∈ placed k cs) : L = placed k cs := by
  induction cs generalizing k L with
  | nil => exact List.eq_nil_iff_forall_not_mem.2 fun x hx => by simpa [placed] using (hm x).1 hx
  | cons c cs ih =>
    have hfirst := (hm (k, c.2)).2 (List.mem_cons_self ..)
    cases L with
    | nil => cases hfirst
    | cons a L =>
      rw [List.pairwise_cons] at hs
      have ha : a = (k, c.2) := by
        rcases List.mem_cons.1 hfirst with h | h
        · exact h.symm
        · obtain ⟨i, d, -, h2⟩ := mem_placed.1 ((hm a).1 (List.mem_cons_self ..))
          have := hs.1 _ h
          rw [h2] at this
          simp only at this
          omega
      subst ha
      simp only [placed, List.cons.injEq, true_and]
      refine ih hs.2 fun x => ⟨fun hx => ?_, fun hx => ?_⟩
      · rcases List.mem_cons.1 ((hm x).1 (List.mem_cons_of_mem _ hx)) with rfl | h
        · exact absurd (hs.1 _ hx) (Nat.lt_irrefl _)
        · exact h
      · rcases List.mem_cons.1 ((hm x).2 (List.mem_cons_of_mem _ hx)) with rfl | h
        · obtain ⟨i, d, -, h2⟩ := mem_placed.1 hx
          have := congrArg Prod.fst h2
          simp only at this
          omega
        · exact h

theorem unique_of_nodup {A B : Type} {L : List (A × B)} (hn : (L.map (·.1)).Nodup) {x y : A × B} (hx : x ∈ L) (hy : y ∈ L) (h : x.1 = y.1) : x = y := by
  induction L with
  | nil => cases hx
  | cons a L ih =>
    rw [List.map_cons, List.nodup_cons] at hn
    rcases List.mem_cons.1 hx with rfl | hx' <;> rcases List.mem_cons.1 hy with rfl | hy'
    · rfl
    · exact absurd (List.mem_map.2 ⟨y, hy', h.symm⟩) hn.1
    · exact absurd (List.mem_map.2 ⟨x, hx', h⟩) hn.1
    · exact ih hn.2 hx' hy'

/-- **C72.** Calls made one after the other are linearizable exactly if they are, in this order, a run of the sequential object. -/
theorem linearizable_sequential {cs : List (Nat × Op × Ret)} : Linearizable S (sequential cs) ↔ ∃ σ, Does S S.init (cs.map (·.2)) σ := by
  constructor
  · rintro ⟨L, hl⟩
    obtain ⟨σ, hr⟩ := hl.legal
    have hmem : ∀ x, x ∈ L ↔ x ∈ placed 0 cs := by
      have hin : ∀ {m c}, cs[m]? = some c → (2 * m, c.2) ∈ L := by
        rintro m ⟨t, o, r⟩ hc
        obtain ⟨o', h1⟩ := hl.complete _ _ _ (sequential_returned.2 ⟨m, t, o, rfl, rfl, hc⟩)
        obtain ⟨t', h2⟩ := hl.invoked _ h1
        rw [sequential_inv, hc] at h2
        cases h2
        exact h1
      intro x
      rw [mem_placed]
      constructor
      · intro hx
        obtain ⟨t, h1⟩ := hl.invoked x hx
        obtain ⟨m, r, h2, h3⟩ := sequential_position h1
        refine ⟨m, _, h3, ?_⟩
        have h4 := hin h3
        rw [Nat.zero_add]
        exact unique_of_nodup hl.nodup hx h4 h2
      · rintro ⟨m, c, h1, rfl⟩
        rw [Nat.zero_add]
        exact hin h1
    have hsort : L.Pairwise fun a b => a.1 < b.1 := by
      have hn : L.Pairwise fun a b => a.1 ≠ b.1 := by simpa [List.Nodup, List.pairwise_map] using hl.nodup
      refine (hn.and hl.realtime).imp_of_mem ?_
      rintro a b ha hb ⟨h1, h2⟩
      obtain ⟨i, c, h3, rfl⟩ := mem_placed.1 ((hmem a).1 ha)
      obtain ⟨j, ⟨t, o, r⟩, h4, rfl⟩ := mem_placed.1 ((hmem b).1 hb)
      simp only [Nat.zero_add] at h1 h2 ⊢
      apply Classical.byContradiction
      intro h5
      exact h2 ⟨2 * j + 1, r, sequential_returned.2 ⟨j, t, o, rfl, rfl, h4⟩, by omega⟩
    have := eq_placed hsort hmem
    subst this
    rw [← placed_snd 0]
    exact ⟨σ, hr.does⟩
  · rintro ⟨σ, h⟩
    refine ⟨placed 0 cs, ?_, fun x hx => ?_, fun i j r h => ?_, ?_, σ, h.run⟩
    · rw [List.Nodup, List.pairwise_map]
      exact (placed_sorted 0 cs).imp fun h => Nat.ne_of_lt h
    · obtain ⟨m, c, h1, rfl⟩ := mem_placed.1 hx
      exact ⟨c.1, by simp only [Nat.zero_add]; rw [sequential_inv, h1]; rfl⟩
    · obtain ⟨m, t, o, rfl, rfl, h1⟩ := sequential_returned.1 h
      exact ⟨o, mem_placed.2 ⟨m, _, h1, by simp⟩⟩
    · refine (placed_sorted 0 cs).imp ?_
      rintro a b h1 ⟨j, r, h2, h3⟩
      obtain ⟨m, t, o, h4, rfl, -⟩ := sequential_returned.1 h2
      omega

end Verif.Lin
