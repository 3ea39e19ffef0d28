import Verif.Calls
import Verif.Stack.Reach
import Verif.Stack.Observe

/-!
# Stack: property theorems (C14-C18, C25, C40)
-/

namespace Verif.Stack
open Lin

variable {α : Type} {cfg : Cfg} {n : Nat} {h : History (Op α) (Ret α)} {C : Conf α}

/-! ### C14: linearizability -/

/-- **C14.** Every history of the stack (any number of threads, any schedule, spurious failures, node reuse,
throwing user code) in which no tag wraps completely between a load and the corresponding compare-exchange
is linearizable to the sequential LIFO stack. -/
theorem stack_linearizable (hx : FreshExec cfg n h C) : Linearizable (spec α cfg.fixed) h := by
  obtain ⟨g, c, _, hr⟩ := hx.inv
  exact hr.linearizable

/-- With ideal (unbounded) tags no hypothesis on the schedule is needed. -/
theorem stack_linearizable_ideal (hM : cfg.M = 0) (hx : Exec cfg n h C)
    (hne : ∀ t b, Event.inv t (.pushRange b []) ∉ h) : Linearizable (spec α cfg.fixed) h :=
  stack_linearizable (hx.fresh (.inl hM) hne)

/-- With `M` tags, every execution with fewer than `M` removals from the stack and fewer than `M` allocations
from the freelist is linearizable. -/
theorem stack_linearizable_of_few_removals (hx : Exec cfg n h C) (h1 : C.s.tosVer < cfg.M)
    (h2 : C.s.heap.poolVer < cfg.M) (hne : ∀ t b, Event.inv t (.pushRange b []) ∉ h) :
    Linearizable (spec α cfg.fixed) h :=
  stack_linearizable (hx.fresh (.inr ⟨h1, h2⟩) hne)

/-! ### C15: nothing lost or duplicated -/

/-- Values a completed call put into the stack. -/
def pushedBy : Op α → Ret α → List α
  | .push _ v, .pushed true => [v]
  | .pushRange _ vs, .count k => vs.take k
  | _, _ => []

/-- Values a completed call handed to the caller. -/
def handedBy : Op α → Ret α → List α
  | .pop _, .popped (some v) => [v]
  | .consumeAll _ _, .took vs => vs
  | _, _ => []

/-- Values a call offers for pushing. -/
def offeredBy : Op α → List α
  | .push _ v => [v]
  | .pushRange _ vs => vs
  | _ => []

/-- Values accepted by the completed push calls of a history. -/
def accepted (h : History (Op α) (Ret α)) : List α := (calls h).flatMap fun x => pushedBy x.2.1 x.2.2
/-- Values handed out by the completed pop and consume calls of a history. -/
def delivered (h : History (Op α) (Ret α)) : List α := (calls h).flatMap fun x => handedBy x.2.1 x.2.2
/-- Values offered by the push calls of a history, completed or not. -/
def offered (h : History (Op α) (Ret α)) : List α := (invs h).flatMap fun x => offeredBy x.2

theorem seen_subperm (thr : Option Nat) (vs : List α) : (seen thr vs).Subperm vs := by
  cases thr with
  | none => exact List.Subperm.refl _
  | some k => exact (List.take_sublist _ _).subperm

theorem specStep_subperm {fixed : Bool} {σ σ' : List α} {o r} (hs : specStep fixed σ o r σ') :
    (handedBy o r ++ σ').Subperm (pushedBy o r ++ σ) := by
  unfold specStep at hs
  split at hs
  · rcases hs with ⟨rfl, rfl⟩ | ⟨rfl, _, rfl⟩ <;> simp [handedBy, pushedBy, List.Subperm.refl]
  · subst hs; simp [handedBy, pushedBy, List.Subperm.refl]
  · obtain ⟨_, _, rfl⟩ := hs
    simp only [handedBy, pushedBy, List.nil_append]
    exact ((List.reverse_perm _).append_right _).subperm
  · subst hs; simp [handedBy, pushedBy, List.Subperm.refl]
  · obtain ⟨rfl, rfl⟩ := hs; simp [handedBy, pushedBy, List.Subperm.refl]
  · subst hs; simp [handedBy, pushedBy, List.Subperm.refl]
  · obtain ⟨rfl, rfl⟩ := hs
    simp only [handedBy, pushedBy, List.nil_append, List.append_nil]
    refine (seen_subperm _ _).trans ?_
    split
    · exact (List.reverse_perm σ).subperm
    · exact List.Subperm.refl _
  · obtain ⟨_, rfl⟩ := hs; simp [handedBy, pushedBy, List.Subperm.refl]
  · subst hs; simp [handedBy, pushedBy, List.Subperm.refl]
  · subst hs; simp [handedBy, pushedBy, List.Subperm.refl]
  · exact hs.elim

theorem specStep_perm {fixed : Bool} {σ σ' : List α} {o r} (hs : specStep fixed σ o r σ')
    (hno : ∀ rev k, o ≠ .consumeAll rev (some k)) :
    (handedBy o r ++ σ').Perm (pushedBy o r ++ σ) := by
  unfold specStep at hs
  split at hs
  · rcases hs with ⟨rfl, rfl⟩ | ⟨rfl, _, rfl⟩ <;> simp [handedBy, pushedBy]
  · subst hs; simp [handedBy, pushedBy]
  · obtain ⟨_, _, rfl⟩ := hs
    simp only [handedBy, pushedBy, List.nil_append]
    exact (List.reverse_perm _).append_right _
  · subst hs; simp [handedBy, pushedBy]
  · obtain ⟨rfl, rfl⟩ := hs; simp [handedBy, pushedBy]
  · subst hs; simp [handedBy, pushedBy]
  · rename_i rev thr vs
    obtain ⟨rfl, rfl⟩ := hs
    simp only [handedBy, pushedBy, List.nil_append, List.append_nil]
    cases thr with
    | some k => exact absurd rfl (hno rev k)
    | none =>
      simp only [seen]
      split
      · exact List.reverse_perm σ
      · exact .refl _
  · obtain ⟨_, rfl⟩ := hs; simp [handedBy, pushedBy]
  · subst hs; simp [handedBy, pushedBy]
  · subst hs; simp [handedBy, pushedBy]
  · exact hs.elim

theorem SI.holds {s : St α} {g σ} (hi : SI cfg s g σ) : Holds s σ := ⟨g.S, hi.chain, hi.data⟩

theorem Holds.unique {s : St α} {σ σ' : List α} (h1 : Holds s σ) (h2 : Holds s σ') : σ = σ' := by
  obtain ⟨S, hc, hd⟩ := h1
  obtain ⟨S', hc', hd'⟩ := h2
  rw [hc.unique hc', hd'] at hd
  exact (List.map_injective_iff.2 (fun _ _ h => Option.some.inj h) hd).symm

theorem HbLinearization.delivers_only_offered {fixed : Bool} {hb L σ} (hl : HbLinearization (spec α fixed) hb h L)
    (hrun : Run (spec α fixed) (spec α fixed).init L σ) : (delivered h).Subperm (offered h) := by
  have h1 := Run.subperm (S := spec α fixed) handedBy pushedBy (fun σ : List α => σ)
    (fun _ _ _ _ => specStep_subperm) hrun
  have h2 : (delivered h).Subperm (L.flatMap fun x => handedBy x.2.1 x.2.2) :=
    subperm_flatMap hl.calls_subperm _
  refine h2.trans ?_
  refine List.Subperm.trans (l₂ := (L.flatMap fun x => pushedBy x.2.1 x.2.2)) ?_ ?_
  · refine List.Subperm.trans (List.sublist_append_left _ _).subperm (h1.trans ?_)
    simp [spec, List.Subperm.refl]
  · have h3 := subperm_flatMap hl.subperm_invs (fun x => offeredBy x.2)
    rw [List.flatMap_map] at h3
    refine List.Subperm.trans (List.Sublist.subperm ?_) h3
    refine List.Sublist.flatMap_right L fun x _ => ?_
    obtain ⟨i, o, r⟩ := x
    simp only
    unfold pushedBy
    split
    · simp [offeredBy]
    · simp only [offeredBy]; exact List.take_sublist _ _
    · simp

theorem Linearization.delivers_only_offered {fixed : Bool} {L σ} (hl : Linearization (spec α fixed) h L)
    (hrun : Run (spec α fixed) (spec α fixed).init L σ) : (delivered h).Subperm (offered h) :=
  HbLinearization.delivers_only_offered hl.any hrun

/-- **C15 (no duplication, no invention).** In every history the values handed out, counted with multiplicity,
are among the values offered to push calls. -/
theorem stack_delivers_only_offered (hx : FreshExec cfg n h C) : (delivered h).Subperm (offered h) := by
  obtain ⟨L, hl⟩ := stack_linearizable hx
  obtain ⟨σ, hrun⟩ := hl.legal
  exact Linearization.delivers_only_offered hl hrun

/-- **C15 (conservation).** When no call is in progress, the values accepted by pushes are exactly, as a
multiset, the values handed out plus the contents of the stack — provided no functor passed to
`consume_all_atomic` throws (which drops elements, see C23). -/
theorem stack_conservation (hx : FreshExec cfg n h C) (hq : ∀ t, C.pc t = .idle)
    (hno : ∀ t rev k, Event.inv t (.consumeAll rev (some k)) ∉ h) :
    ∃ vs, Holds C.s vs ∧ (delivered h ++ vs).Perm (accepted h) := by
  obtain ⟨g, c, hi, hr⟩ := hx.inv
  obtain ⟨L, hl, hrun, hret⟩ := hr.linearization
  refine ⟨c.st, hi.si.holds, ?_⟩
  have hp : L.Perm (calls h) := by
    refine hl.perm_calls fun x hx => ?_
    rcases hret x hx with h1 | ⟨t, h1⟩
    · exact h1
    · have h2 := hi.loc t
      rw [hq t] at h2
      have h3 := h2.2
      rw [h1] at h3
      exact absurd h3 (by simp)
  have h1 := Run.perm (S := spec α cfg.fixed) handedBy pushedBy (fun σ : List α => σ) (L := L)
    (fun σ i o r σ' hm hs => specStep_perm hs fun rev k he => ?_) hrun
  · simp only [spec, List.append_nil] at h1
    exact ((hp.flatMap_right _).symm.append_right _).trans (h1.trans (hp.flatMap_right _))
  · obtain ⟨t, ht⟩ := hl.invoked _ hm
    simp only [he] at ht
    exact hno t rev k (List.mem_of_getElem? ht)

/-! ### C16, C17: atomicity of range push and of consume_all_atomic -/

/-- **C16/C17 (atomicity in memory).** Every step of a thread leaves the contents alone or performs on them one
whole operation, pending in that thread, as the sequential specification says. In particular no intermediate
state of a range push or of `consume_all_atomic` is ever visible in the stack. -/
theorem stack_step_atomic (hx : FreshExec cfg n h C) {t ch s' p' e}
    (hs : tstep cfg t C.s (C.pc t) ch = some (s', p', e)) (hf : fresh cfg C.s (C.pc t))
    (hne : ∀ b, ch ≠ .call (.pushRange b [])) :
    ∃ σ σ', Holds C.s σ ∧ Holds s' σ' ∧
      (σ' = σ ∨ ∃ i o r, Pending h t i o ∧ specStep cfg.fixed σ o r σ') := by
  obtain ⟨g, c, hi, hr⟩ := hx.inv
  obtain ⟨g', c', hi', hm, _, hst⟩ := hi.step hs hf hne
  refine ⟨c.st, c'.st, hi.si.holds, hi'.si.holds, ?_⟩
  cases hm with
  | @lin t' o P r σ' hp hsp =>
    obtain ⟨L, hg⟩ := hr.good
    have ht : t' = t := Classical.byContradiction fun hne => by
      have := hst t' hne
      simp [hp] at this
    subst ht
    have h1 := hg.thr t'
    rw [hp] at h1
    obtain ⟨i, h2, _⟩ := h1
    exact .inr ⟨i, o, r, h2, hsp⟩
  | _ => exact .inl rfl

/-- **C16.** A completed range push reports at most the length of the range, and a push that may allocate
reports that the whole range was pushed. -/
theorem range_push_count (hx : FreshExec cfg n h C) {i b vs k}
    (hc : (i, .pushRange b vs, .count k) ∈ calls h) :
    k ≤ vs.length ∧ (cfg.fixed = false → b = false → k = vs.length) := by
  obtain ⟨σ, σ', hs⟩ := (stack_linearizable hx).step_of_call hc
  obtain ⟨h1, h2, _⟩ := hs
  refine ⟨h1, fun hf hb => ?_⟩
  subst hb
  rcases Nat.lt_or_ge k vs.length with h3 | h3
  · have := h2 h3; simp [hf] at this
  · omega

/-- **C16 (atomicity).** There is a linearization in which every range push that reported `k` puts its first
`k` elements as one block on top, the last of them topmost, with nothing in between. -/
theorem range_push_atomic (hx : FreshExec cfg n h C) :
    ∃ L, Linearization (spec α cfg.fixed) h L ∧
      ∀ L₁ i b vs k L₂, L = L₁ ++ (i, .pushRange b vs, .count k) :: L₂ →
        ∃ σ : List α, Run (spec α cfg.fixed) ([] : List α) L₁ σ ∧
          Run (spec α cfg.fixed) ([] : List α) (L₁ ++ [(i, .pushRange b vs, .count k)])
            ((vs.take k).reverse ++ σ : List α) := by
  obtain ⟨L, hl⟩ := stack_linearizable hx
  refine ⟨L, hl, ?_⟩
  rintro L₁ i b vs k L₂ rfl
  obtain ⟨σe, hr⟩ := hl.legal
  obtain ⟨σ₁, σ₂, h1, ⟨_, _, rfl⟩, h3, _⟩ := hr.split
  exact ⟨σ₁, h1, h3⟩

/-- **C17.** There is a linearization in which every `consume_all_atomic` (`_reversed`) hands to its functor
exactly the whole contents of the stack at its linearization point, in LIFO (FIFO) order — up to and
including the call that throws, if the functor throws — and leaves the stack empty. -/
theorem consume_all_atomic_snapshot (hx : FreshExec cfg n h C) :
    ∃ L, Linearization (spec α cfg.fixed) h L ∧
      ∀ L₁ i rev thr r L₂, L = L₁ ++ (i, .consumeAll rev thr, r) :: L₂ →
        ∃ σ : List α, Run (spec α cfg.fixed) ([] : List α) L₁ σ ∧
          r = .took (seen thr (if rev then σ.reverse else σ)) ∧
          Run (spec α cfg.fixed) ([] : List α) (L₁ ++ [(i, .consumeAll rev thr, r)]) ([] : List α) := by
  obtain ⟨L, hl⟩ := stack_linearizable hx
  refine ⟨L, hl, ?_⟩
  rintro L₁ i rev thr r L₂ rfl
  obtain ⟨σe, hr⟩ := hl.legal
  obtain ⟨σ₁, σ₂, h1, h2, h3, _⟩ := hr.split
  refine ⟨σ₁, h1, ?_⟩
  cases r with
  | took vs =>
    obtain ⟨rfl, rfl⟩ := id h2
    exact ⟨rfl, h3⟩
  | _ => exact absurd h2 (by simp [spec, specStep])

end Verif.Stack
