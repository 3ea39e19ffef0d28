import Verif.WeakLin
import Mathlib.Data.List.Perm.Basic
import Mathlib.Data.List.Perm.Subperm
import Mathlib.Data.List.Flatten
import Mathlib.Data.List.Nodup

/-!
# Completed calls of a history

Observable vocabulary for counting properties: the list of calls of a history and the list of completed
calls with their results; how a linearization relates to them.
-/

namespace Verif.Lin

variable {Op Ret : Type}

/-- Result of the call invoked at position `i`, if it is a call that has returned. -/
def outcome (h : History Op Ret) (i : Nat) : Option (Op × Ret) :=
  match h[i]? with
  | some (.inv t o) =>
    match (h.drop (i + 1)).find? (fun e => e.tid == t) with
    | some (.res _ r) => some (o, r)
    | _ => none
  | _ => none

/-- Completed calls `(position, operation, result)`, in order of invocation. -/
def calls (h : History Op Ret) : List (Nat × Op × Ret) :=
  (List.range h.length).filterMap fun i => (outcome h i).map fun x => (i, x)

/-- All calls `(position, operation)`, completed or not. -/
def invs (h : History Op Ret) : List (Nat × Op) :=
  (List.range h.length).filterMap fun (i : Nat) =>
    match (h[i]? : Option (Event Op Ret)) with
    | some (.inv _ o) => some (i, o)
    | _ => none

theorem outcome_iff {h : History Op Ret} {i : Nat} {o : Op} {r : Ret} :
    outcome h i = some (o, r) ↔ (∃ t, h[i]? = some (.inv t o)) ∧ ∃ j, Returned h i j r := by
  simp only [outcome]
  constructor
  · intro hh
    split at hh
    · rename_i t o' hi
      split at hh
      · rename_i t' r' hf
        simp at hh
        obtain ⟨rfl, rfl⟩ := hh
        refine ⟨⟨t, hi⟩, ?_⟩
        rw [List.find?_eq_some_iff_getElem] at hf
        obtain ⟨hp, k, hk, he, hlt⟩ := hf
        simp [Event.tid] at hp
        subst hp
        simp at hk
        rw [List.getElem_drop] at he
        refine ⟨i + 1 + k, _, _, hi, by omega, ?_, ?_⟩
        · rw [List.getElem?_eq_getElem (by omega), he]
        · intro m e hm1 hm2 hme
          have hm3 := lt_of_getElem? hme
          have := hlt (m - (i + 1)) (by omega)
          simp only [List.getElem_drop] at this
          rw [List.getElem?_eq_getElem hm3] at hme
          have h2 : i + 1 + (m - (i + 1)) = m := by omega
          simp only [h2] at this
          simp at hme
          rw [hme] at this
          simpa using this
      · simp at hh
    · simp at hh
  · rintro ⟨⟨t, hi⟩, j, t', o', hi', hj, hr, hno⟩
    rw [hi] at hi'
    simp at hi'
    obtain ⟨rfl, rfl⟩ := hi'
    rw [hi]
    have hjl := lt_of_getElem? hr
    have : (h.drop (i + 1)).find? (fun e => e.tid == t) = some (.res t r) := by
      rw [List.find?_eq_some_iff_getElem]
      refine ⟨by simp [Event.tid], j - (i + 1), by simp; omega, ?_, ?_⟩
      · rw [List.getElem_drop]
        have h2 : i + 1 + (j - (i + 1)) = j := by omega
        simp only [h2]
        rw [List.getElem?_eq_getElem hjl] at hr
        simpa using hr
      · intro m hm
        rw [List.getElem_drop]
        have := hno (i + 1 + m) h[i + 1 + m] (by omega) (by omega) (by rw [List.getElem?_eq_getElem])
        simpa using this
    simp [this]

theorem mem_calls {h : History Op Ret} {i o r} :
    (i, o, r) ∈ calls h ↔ (∃ t, h[i]? = some (.inv t o)) ∧ ∃ j, Returned h i j r := by
  simp only [calls, List.mem_filterMap, List.mem_range, Option.map_eq_some_iff, Prod.mk.injEq]
  constructor
  · rintro ⟨k, hk, ⟨o', r'⟩, hx, rfl, h3⟩
    simp at h3
    obtain ⟨rfl, rfl⟩ := h3
    exact outcome_iff.1 hx
  · intro hh
    obtain ⟨⟨t, ht⟩, _⟩ := id hh
    exact ⟨i, lt_of_getElem? ht, (o, r), outcome_iff.2 hh, rfl, rfl⟩

theorem mem_invs {h : History Op Ret} {i o} :
    (i, o) ∈ invs h ↔ ∃ t, h[i]? = some (.inv t o) := by
  simp only [invs, List.mem_filterMap, List.mem_range]
  constructor
  · rintro ⟨k, hk, hx⟩
    split at hx
    · simp at hx; obtain ⟨rfl, rfl⟩ := hx; exact ⟨_, by assumption⟩
    · simp at hx
  · rintro ⟨t, ht⟩
    exact ⟨i, lt_of_getElem? ht, by simp [ht]⟩

theorem nodup_filterMap_range {A : Type} (n : Nat) (f : Nat → Option A) (k : A → Nat)
    (hk : ∀ i a, f i = some a → k a = i) : ((List.range n).filterMap f).Nodup := by
  refine List.Nodup.filterMap ?_ List.nodup_range
  intro a a' b hb hb'
  rw [← hk a b hb, ← hk a' b hb']

theorem calls_nodup (h : History Op Ret) : (calls h).Nodup := by
  refine nodup_filterMap_range _ _ (fun x => x.1) ?_
  intro i a ha
  simp only [Option.map_eq_some_iff] at ha
  obtain ⟨_, _, rfl⟩ := ha
  rfl

theorem invs_nodup (h : History Op Ret) : (invs h).Nodup := by
  refine nodup_filterMap_range _ _ (fun x => x.1) ?_
  intro i a ha
  split at ha <;> simp at ha
  subst ha; rfl

variable {S : Spec Op Ret} {h : History Op Ret} {L : List (Nat × Op × Ret)}

variable {hb : Nat → Nat → Prop}

theorem HbLinearization.nodup' (hl : HbLinearization S hb h L) : L.Nodup := List.Nodup.of_map _ hl.nodup

theorem HbLinearization.mem_of_calls (hl : HbLinearization S hb h L) {x} (hx : x ∈ calls h) : x ∈ L := by
  obtain ⟨i, o, r⟩ := x
  obtain ⟨⟨t, ht⟩, j, hj⟩ := mem_calls.1 hx
  obtain ⟨o', ho'⟩ := hl.complete i j r hj
  obtain ⟨t', ht'⟩ := hl.invoked _ ho'
  simp only at ht'
  rw [ht] at ht'
  simp at ht'
  rw [ht'.2]; exact ho'

/-- All completed calls are in a linearization. -/
theorem HbLinearization.calls_subperm (hl : HbLinearization S hb h L) : (calls h).Subperm L :=
  List.subperm_of_subset (calls_nodup h) fun _ hx => hl.mem_of_calls hx

/-- A linearization contains only calls of the history. -/
theorem HbLinearization.subperm_invs (hl : HbLinearization S hb h L) :
    (L.map fun x => (x.1, x.2.1)).Subperm (invs h) := by
  refine List.subperm_of_subset ?_ ?_
  · refine List.Nodup.of_map (fun x => x.1) ?_
    rw [List.map_map]
    exact hl.nodup
  · intro x hx
    obtain ⟨y, hy, rfl⟩ := List.mem_map.1 hx
    exact mem_invs.2 (hl.invoked y hy)

/-- If nothing is pending the linearization is a permutation of the completed calls. -/
theorem HbLinearization.perm_calls (hl : HbLinearization S hb h L) (hc : ∀ x ∈ L, ∃ j, Returned h x.1 j x.2.2) :
    L.Perm (calls h) := by
  rw [List.perm_ext_iff_of_nodup hl.nodup' (calls_nodup h)]
  intro x
  refine ⟨fun hx => ?_, hl.mem_of_calls⟩
  exact mem_calls.2 ⟨hl.invoked x hx, hc x hx⟩

theorem Linearization.any (hl : Linearization S h L) : HbLinearization S (fun _ _ => False) h L := hl.hb nofun

theorem Linearization.mem_of_calls (hl : Linearization S h L) {x} (hx : x ∈ calls h) : x ∈ L := hl.any.mem_of_calls hx

/-- All completed calls are in a linearization. -/
theorem Linearization.calls_subperm (hl : Linearization S h L) : (calls h).Subperm L := hl.any.calls_subperm

/-- A linearization contains only calls of the history. -/
theorem Linearization.subperm_invs (hl : Linearization S h L) :
    (L.map fun x => (x.1, x.2.1)).Subperm (invs h) := hl.any.subperm_invs

/-- If nothing is pending the linearization is a permutation of the completed calls. -/
theorem Linearization.perm_calls (hl : Linearization S h L) (hc : ∀ x ∈ L, ∃ j, Returned h x.1 j x.2.2) :
    L.Perm (calls h) := hl.any.perm_calls hc

theorem subperm_flatMap {A B : Type} {l₁ l₂ : List A} (hs : l₁.Subperm l₂) (f : A → List B) :
    (l₁.flatMap f).Subperm (l₂.flatMap f) := by
  obtain ⟨l, hp, hsub⟩ := hs
  exact ⟨l.flatMap f, hp.flatMap_right f, hsub.flatMap f⟩

/-! ### Runs -/

theorem Run.nil_inv {σ σ' : S.State} (hr : Run S σ [] σ') : σ = σ' := by cases hr; rfl

theorem Run.cons_inv {σ σ' : S.State} {i o r} {L : List (Nat × Op × Ret)} (hr : Run S σ ((i, o, r) :: L) σ') :
    ∃ τ, S.step σ o r τ ∧ Run S τ L σ' := by
  cases hr with
  | cons h1 h2 => exact ⟨_, h1, h2⟩

theorem Run.split {σ : S.State} {L₁ L₂ : List (Nat × Op × Ret)} {i o r σe}
    (hr : Run S σ (L₁ ++ (i, o, r) :: L₂) σe) :
    ∃ σ₁ σ₂, Run S σ L₁ σ₁ ∧ S.step σ₁ o r σ₂ ∧ Run S σ (L₁ ++ [(i, o, r)]) σ₂ ∧ Run S σ₂ L₂ σe := by
  induction L₁ generalizing σ with
  | nil =>
    cases hr with
    | cons hs hr => exact ⟨σ, _, .nil _, hs, .cons hs (.nil _), hr⟩
  | cons x L₁ ih =>
    cases hr with
    | cons hs hr =>
      obtain ⟨σ₁, σ₂, h1, h2, h3, h4⟩ := ih hr
      exact ⟨σ₁, σ₂, .cons hs h1, h2, .cons hs h3, h4⟩

/-- Every completed call is a step of the specification. -/
theorem Linearizable.step_of_call (hl : Linearizable S h) {i o r}
    (hc : (i, o, r) ∈ calls h) : ∃ σ σ', S.step σ o r σ' := by
  obtain ⟨L, hl⟩ := hl
  have hm := hl.mem_of_calls hc
  obtain ⟨σ, hr⟩ := hl.legal
  obtain ⟨L₁, L₂, rfl⟩ := List.append_of_mem hm
  obtain ⟨σ₁, σ₂, _, h2, _⟩ := hr.split
  exact ⟨σ₁, σ₂, h2⟩

section
variable {A : Type} (hand push : Op → Ret → List A) (val : S.State → List A)

theorem Run.subperm (hstep : ∀ σ o r σ', S.step σ o r σ' → (hand o r ++ val σ').Subperm (push o r ++ val σ))
    {σ σ' : S.State} {L} (hr : Run S σ L σ') :
    ((L.flatMap fun x => hand x.2.1 x.2.2) ++ val σ').Subperm
      ((L.flatMap fun x => push x.2.1 x.2.2) ++ val σ) := by
  induction hr with
  | nil => exact List.Subperm.refl _
  | @cons σ i o r σ₁ L σ'' hs _ ih =>
    simp only [List.flatMap_cons, List.append_assoc]
    have h1 := hstep _ _ _ _ hs
    refine ((List.subperm_append_left _).2 ih).trans ?_
    have h3 : (hand o r ++ ((L.flatMap fun x => push x.2.1 x.2.2) ++ val σ₁)).Perm
        ((L.flatMap fun x => push x.2.1 x.2.2) ++ (hand o r ++ val σ₁)) := by
      rw [← List.append_assoc, ← List.append_assoc]
      exact List.perm_append_comm.append_right _
    refine h3.subperm.trans (((List.subperm_append_left _).2 h1).trans (List.Perm.subperm ?_))
    rw [← List.append_assoc, ← List.append_assoc]
    exact List.perm_append_comm.append_right _

theorem Run.perm {σ σ' : S.State} {L}
    (hstep : ∀ σ i o r σ', (i, o, r) ∈ L → S.step σ o r σ' → (hand o r ++ val σ').Perm (push o r ++ val σ))
    (hr : Run S σ L σ') :
    ((L.flatMap fun x => hand x.2.1 x.2.2) ++ val σ').Perm
      ((L.flatMap fun x => push x.2.1 x.2.2) ++ val σ) := by
  induction hr with
  | nil => exact List.Perm.refl _
  | @cons σ i o r σ₁ L σ'' hs _ ih =>
    simp only [List.flatMap_cons, List.append_assoc]
    have h1 := hstep _ i _ _ _ (by simp) hs
    have ih := ih fun σ i o r σ' hm => hstep σ i o r σ' (by simp [hm])
    refine (ih.append_left _).trans ?_
    have h3 : (hand o r ++ ((L.flatMap fun x => push x.2.1 x.2.2) ++ val σ₁)).Perm
        ((L.flatMap fun x => push x.2.1 x.2.2) ++ (hand o r ++ val σ₁)) := by
      rw [← List.append_assoc, ← List.append_assoc]
      exact List.perm_append_comm.append_right _
    refine h3.trans ((h1.append_left _).trans ?_)
    rw [← List.append_assoc, ← List.append_assoc]
    exact List.perm_append_comm.append_right _
end

end Verif.Lin
