import Verif.Freelist.Inv
import Verif.WordReps

/-!
# The freelists on their own: properties (C67)

`construct` and `destruct` called by arbitrary threads that give back only nodes they have (`Disciplined`).
-/

namespace Verif.Freelist
open Lin Text

variable {α : Type} {R : Rep} {n : Nat} {h : History (Op α) Ret} {C : TConf R α}

theorem freelist_refines (hx : Exec R n h C) :
    ∃ D : MConf (SMem R.K α) (PC R.K α), MSteps (smach α R) (okFresh R) ⟨SMem.initial R n, fun _ => .idle⟩ h D ∧ D.s = C.s ∧
      ∀ t, ∃ k, PCRel (smach α R) .err At k (C.pc t) (D.pc t) :=
  refines.steps (fun _ _ _ _ => trivial) hx

/-- **C67.** A freelist is linearizable: `construct` takes a node that is free or new, `destruct` makes it free, and null means that no node is free. -/
theorem freelist_linearizable (hf : R.Faithful) (hn : n ≤ R.limit) (hx : Exec R n h C) (hd : Disciplined h) :
    Linearizable (spec α R.fixed n) h := by
  obtain ⟨D, hx, -⟩ := freelist_refines hx
  obtain ⟨c, hc, -⟩ := ginv hf hn hx hd
  exact hc.linearizable

/-- **C67.** No object is constructed where one exists already, none is destroyed that does not exist, and no null node is accessed. -/
theorem freelist_no_undefined_behaviour (hf : R.Faithful) (hn : n ≤ R.limit) (hx : Exec R n h C) (hd : Disciplined h) (t : Nat) : C.pc t ≠ .err := by
  obtain ⟨D, hx, -, hp⟩ := freelist_refines hx
  obtain ⟨c, -, _, _, _, _, -, ht⟩ := ginv hf hn hx hd
  intro he
  obtain ⟨_, h1⟩ := hp t
  rw [he] at h1
  have h2 := ht t
  rw [show D.pc t = .err from h1] at h2
  exact h2

/-- **C67.** `construct` returns no node that the users have already. -/
theorem freelist_exclusive (hf : R.Faithful) (hn : n ≤ R.limit) (hx : Exec R n h C) (hd : Disciplined h) {h₁ h₂ : History (Op α) Ret} {t k : Nat}
    (he : h = h₁ ++ .res t (.node (some k)) :: h₂) : k ∉ owned h₁ := by
  obtain ⟨D, hx', -⟩ := freelist_refines hx
  clear hx
  rename' hx' => hx
  generalize hD : (⟨SMem.initial R n, fun _ => .idle⟩ : MConf (SMem R.K α) (PC R.K α)) = D₀ at hx
  induction hx generalizing h₂ with
  | refl => simp at he
  | @step h D u ch s' p' e hx hs hok ih =>
    subst hD
    cases e with
    | none => exact ih (by simpa using hd) (by simpa using he)
    | some e =>
      simp only [Option.toList_some] at he hd
      rcases List.eq_nil_or_concat h₂ with rfl | ⟨h₂', e', rfl⟩
      · obtain ⟨rfl, h6⟩ := List.append_inj' he rfl
        cases h6
        obtain ⟨c, -, _, _, _, _, hsh, -⟩ := ginv hf hn (hx.step hs hok) hd
        have := hsh.nodup
        rw [Option.toList_some, owned_snoc] at this
        exact (List.nodup_cons.1 this).1
      · have he : h ++ [e] = (h₁ ++ .res t (.node (some k)) :: h₂') ++ [e'] := by simpa using he
        obtain ⟨rfl, -⟩ := List.append_inj' he rfl
        exact ih hd.left rfl

/-- **C67.** Every node the users have holds the object that was constructed in it, with the value passed to `construct`. -/
theorem freelist_value (hf : R.Faithful) (hn : n ≤ R.limit) (hx : Exec R n h C) (hd : Disciplined h) {k : Nat} {v : α} (hm : Made h k v) :
    C.s.data k = some v := by
  obtain ⟨D, hx, hs, -⟩ := freelist_refines hx
  obtain ⟨c, -, _, _, _, _, hsh, -⟩ := ginv hf hn hx hd
  rw [← hs, hsh.mem.data]
  exact hsh.vals k v hm

/-- `freelist_conservation` for the machine. -/
theorem conserved (hf : R.Faithful) (hn : n ≤ R.limit) {D : MConf (SMem R.K α) (PC R.K α)}
    (hx : MSteps (smach α R) (okFresh R) ⟨SMem.initial R n, fun _ => .idle⟩ h D) (hd : Disciplined h) (hq : ∀ t, D.pc t = .idle)
    (hno : ∀ t b v, Event.inv t (.construct b v true) ∉ h) :
    ∃ F, Linked R D.s (R.K.ptr D.s.pool) F ∧ (F ++ owned h).Perm (List.range D.s.nalloc) := by
  obtain ⟨c, -, H, own, F, held, hsh, ht⟩ := ginv hf hn hx hd
  have hi := hsh.hinv
  refine ⟨F, ?_, ?_⟩
  · rw [hsh.mem.pool, hf.ptr (hsh.mem.okPool.mono hsh.mem.limit)]
    exact hsh.mem.linked hf hi.chain hsh.mem.okPool.1
  · have hdis : (F ++ owned h).Nodup := by
      refine List.nodup_append.2 ⟨hi.fnodup, hsh.nodup, fun a ha b hb hab => ?_⟩
      subst hab
      have h1 := (hi.fmem a).2 ha
      rw [(hsh.str a).2 hb] at h1
      cases h1
    refine (List.perm_ext_iff_of_nodup hdis List.nodup_range).2 fun k => ?_
    rw [List.mem_append, List.mem_range, ← hi.fmem, ← hsh.str, hsh.mem.nalloc]
    have hraw := hi.raw k
    cases ho : own k with
    | raw => rw [ho] at hraw; simp at hraw; simpa using hraw
    | thr t =>
      have h1 := (hi.hmem t k).1 ho
      have h2 := ht t
      rw [hq t] at h2
      rw [h2.1] at h1
      simp at h1
    | lost =>
      obtain ⟨t, b, v, h1⟩ := hsh.lost k ho
      exact (hno t b v h1).elim
    | free => rw [ho] at hraw; simp at hraw ⊢; exact hraw
    | str => rw [ho] at hraw; simp at hraw ⊢; exact hraw

/-- **C67.** When no call is in progress and no constructor has thrown, every node is either in the list of free nodes or at a user, once. -/
theorem freelist_conservation (hf : R.Faithful) (hn : n ≤ R.limit) (hx : Exec R n h C) (hd : Disciplined h) (hq : ∀ t, C.pc t = .idle)
    (hno : ∀ t b v, Event.inv t (.construct b v true) ∉ h) :
    ∃ F, Linked R C.s (R.K.ptr C.s.pool) F ∧ (F ++ owned h).Perm (List.range C.s.nalloc) := by
  obtain ⟨D, hx, hs, hp⟩ := freelist_refines hx
  rw [← hs]
  refine conserved hf hn hx hd (fun t => ?_) hno
  obtain ⟨_, h3⟩ := hp t
  rw [hq t] at h3
  exact h3

/-- **C67.** A freelist of fixed size, or one used only through bounded calls, never asks the allocator for another node. -/
theorem freelist_bounded (hf : R.Faithful) (hn : n ≤ R.limit) (hx : Exec R n h C) (hd : Disciplined h)
    (hb : R.fixed = true ∨ ∀ t v thr, Event.inv t (.construct false v thr) ∉ h) : C.s.nalloc = n := by
  obtain ⟨D, hx, hs, -⟩ := freelist_refines hx
  obtain ⟨c, -, _, _, _, _, hsh, -⟩ := ginv hf hn hx hd
  rw [← hs, hsh.mem.nalloc]
  exact hsh.bound hb

/-- **C67.** What null means: in a sequential run without new nodes, all nodes are in use when `construct` returns null. -/
theorem freelist_null {fixed : Bool} {L₁ L₂ : List (Nat × Op α × Ret)} {i : Nat} {b : Bool} {v : α} {thr : Bool} {σ : (spec α fixed n).State}
    (hr : Run (spec α fixed n) (spec α fixed n).init (L₁ ++ (i, .construct b v thr, .node none) :: L₂) σ)
    (hb : fixed = true ∨ ∀ x ∈ L₁, ∀ v thr, x.2.1 ≠ .construct false v thr) :
    ∃ σ₁ : Pool, Run (spec α fixed n) (spec α fixed n).init L₁ σ₁ ∧ σ₁.used.Perm (List.range n) := by
  have split : ∀ (L₁ : List (Nat × Op α × Ret)) {σ₀ σ : (spec α fixed n).State} {L₂}, Run (spec α fixed n) σ₀ (L₁ ++ L₂) σ →
      ∃ σ₁, Run (spec α fixed n) σ₀ L₁ σ₁ ∧ Run (spec α fixed n) σ₁ L₂ σ := by
    intro L₁
    induction L₁ with
    | nil => exact fun h => ⟨_, .nil _, h⟩
    | cons x L ih =>
      intro σ₀ σ L₂ h
      cases h with
      | cons hs h =>
        obtain ⟨σ₁, h1, h2⟩ := ih h
        exact ⟨σ₁, .cons hs h1, h2⟩
  obtain ⟨σ₁, h1, h2⟩ := split L₁ hr
  have h3 := run_nodes h1 hb
  cases h2 with
  | cons hs _ =>
    cases hs with
    | null _ hF =>
      rw [hF] at h3
      exact ⟨σ₁, h1, by simpa using h3⟩

end Verif.Freelist
