import Verif.Freelist.Props
import Verif.Queue.TextProps
import Verif.Sequential
import Verif.Spsc.TextProps
import Verif.Stack.TextProps

/-!
# The containers used by one thread at a time (C72)

No further code of /repo is modelled here. The theorems cover, for all lengths and sizes, what test/stack_test.cpp, test/queue_test.cpp, test/spsc_queue_test.cpp and
test/freelist_test.cpp:52-118 test with some.
-/

namespace Verif
open Lin

variable {α : Type}

/-! ### stack -/

namespace Stack.Code
variable {R : Rep} {n : Nat} {C : TConf R α} {cs : List (Nat × Op α × Ret α)}

/-- **C72 (stack).** Calls made one after the other, by whatever threads, have the results of the sequential stack. -/
theorem stack_sequential (hf : R.Faithful) (hn : n ≤ R.limit) (hx : TextExec R n (sequential cs) C) : ∃ σ, Does (spec α R.fixed) [] (cs.map (·.2)) σ :=
  linearizable_sequential.1 (stack_text_linearizable hf hn hx)

theorem does_pushes {fixed b : Bool} {vs : List α} {σ σ' : List α} (h : Does (spec α fixed) σ (vs.map fun v => (.push b v, .pushed true)) σ') :
    σ' = vs.reverse ++ σ := by
  induction vs generalizing σ with
  | nil => exact h.ends
  | cons v vs ih =>
    obtain ⟨σ₁, h1, h2⟩ := h.first
    rcases h1 with ⟨-, h1⟩ | ⟨h1, -⟩
    · rw [h1] at h2
      simpa using ih h2
    · cases h1

theorem does_pops {fixed thr : Bool} {ps : List (Op α × Ret α)} {σ σ' : List α} (h : Does (spec α fixed) σ ps σ') (hp : ∀ p ∈ ps, p.1 = .pop thr) (i : Nat)
    (hi : i < ps.length) : ps[i].2 = .popped σ[i]? := by
  induction ps generalizing σ i with
  | nil => cases hi
  | cons p ps ih =>
    have ho := hp p (List.mem_cons_self ..)
    have hp' := fun q hq => hp q (List.mem_cons_of_mem _ hq)
    obtain ⟨o, r⟩ := p
    obtain ⟨σ₁, h1, h2⟩ := h.first
    simp only at ho
    subst ho
    cases r with
    | popped v =>
      cases v with
      | none =>
        obtain ⟨rfl, rfl⟩ : σ = [] ∧ σ₁ = [] := h1
        cases i with
        | zero => rfl
        | succ i => simpa using ih h2 hp' i (by simpa using hi)
      | some v =>
        have h1 : σ = v :: σ₁ := h1
        subst h1
        cases i with
        | zero => rfl
        | succ i => exact ih h2 hp' i (by simpa using hi)
    | _ => exact h1.elim

/-- **C72 (stack, last in first out).** Elements pushed one after the other are popped in reverse order; then the stack is empty. -/
theorem stack_sequential_lifo (hf : R.Faithful) (hn : n ≤ R.limit) (hx : TextExec R n (sequential cs) C) {b thr : Bool} {vs : List α}
    {ps : List (Op α × Ret α)} (hcs : cs.map (·.2) = (vs.map fun v => (.push b v, .pushed true)) ++ ps) (hp : ∀ p ∈ ps, p.1 = .pop thr) (i : Nat) (hi : i < ps.length) :
    ps[i].2 = .popped vs.reverse[i]? := by
  obtain ⟨σ, h⟩ := stack_sequential hf hn hx
  rw [hcs] at h
  obtain ⟨σ', h1, h2⟩ := h.append
  rw [does_pushes h1, List.append_nil] at h2
  exact does_pops h2 hp i hi

end Stack.Code

/-! ### queue -/

namespace Queue.Code
variable {R : Rep} {n : Nat} {C : TConf R α} {cs : List (Nat × Op α × Ret α)}

/-- **C72 (queue).** Calls made one after the other, by whatever threads, have the results of the sequential queue. -/
theorem queue_sequential (hf : R.Faithful) (hn : n + 1 ≤ R.limit) (hx : TextExec R n (sequential cs) C) : ∃ σ, Does (spec α R.fixed) [] (cs.map (·.2)) σ :=
  linearizable_sequential.1 (queue_text_linearizable hf hn hx)

theorem does_pushes {fixed b : Bool} {vs : List α} {σ σ' : List α} (h : Does (spec α fixed) σ (vs.map fun v => (.push b v, .pushed true)) σ') :
    σ' = σ ++ vs := by
  induction vs generalizing σ with
  | nil => rw [List.append_nil]; exact h.ends
  | cons v vs ih =>
    obtain ⟨σ₁, h1, h2⟩ := h.first
    rcases h1 with ⟨-, h1⟩ | ⟨h1, -⟩
    · rw [h1] at h2
      simpa using ih h2
    · cases h1

theorem does_pops {fixed : Bool} {ps : List (Op α × Ret α)} {σ σ' : List α} (h : Does (spec α fixed) σ ps σ') (hp : ∀ p ∈ ps, p.1 = .pop ∧ p.2 ≠ .threw) (i : Nat)
    (hi : i < ps.length) : ps[i].2 = .popped σ[i]? := by
  induction ps generalizing σ i with
  | nil => cases hi
  | cons p ps ih =>
    have ho := hp p (List.mem_cons_self ..)
    have hp' := fun q hq => hp q (List.mem_cons_of_mem _ hq)
    obtain ⟨o, r⟩ := p
    obtain ⟨σ₁, h1, h2⟩ := h.first
    obtain ⟨ho, hne⟩ := ho
    simp only at ho hne
    subst ho
    cases r with
    | threw => exact absurd rfl hne
    | popped v =>
      cases v with
      | none =>
        obtain ⟨rfl, rfl⟩ : σ = [] ∧ σ₁ = [] := h1
        cases i with
        | zero => rfl
        | succ i => simpa using ih h2 hp' i (by simpa using hi)
      | some v =>
        have h1 : σ = v :: σ₁ := h1
        subst h1
        cases i with
        | zero => rfl
        | succ i => exact ih h2 hp' i (by simpa using hi)
    | _ => exact h1.elim

/-- **C72 (queue, first in first out).** Elements pushed one after the other are popped in this order; then the queue is empty. -/
theorem queue_sequential_fifo (hf : R.Faithful) (hn : n + 1 ≤ R.limit) (hx : TextExec R n (sequential cs) C) {b : Bool} {vs : List α}
    {ps : List (Op α × Ret α)} (hcs : cs.map (·.2) = (vs.map fun v => (.push b v, .pushed true)) ++ ps) (hp : ∀ p ∈ ps, p.1 = .pop ∧ p.2 ≠ .threw) (i : Nat)
    (hi : i < ps.length) : ps[i].2 = .popped vs[i]? := by
  obtain ⟨σ, h⟩ := queue_sequential hf hn hx
  rw [hcs] at h
  obtain ⟨σ', h1, h2⟩ := h.append
  rw [does_pushes h1, List.nil_append] at h2
  exact does_pops h2 hp i hi

end Queue.Code

/-! ### spsc_queue -/

namespace Spsc.Code
variable {cfg : Cfg} {N : Nat} {C : TConf α} {cs : List (Nat × Op α × Ret α)}

/-- **C72 (spsc_queue).** Calls made one after the other have the results of the sequential bounded queue. -/
theorem spsc_sequential (hN : Holds cfg N) (hx : TextExec cfg true (sequential cs) C) : ∃ σ, Does (spec α N) [] (cs.map (·.2)) σ :=
  linearizable_sequential.1 (spsc_text_linearizable hN hx)

theorem does_pushes {ps : List (Op α × Ret α)} {vs : List α} {σ σ' : List α} (h : Does (spec α N) σ ps σ') (hp : ps.map (·.1) = vs.map .push)
    (hne : ∀ p ∈ ps, p.2 ≠ .threw) (hσ : σ.length ≤ N) :
    σ' = (σ ++ vs).take N ∧ ∀ i (hi : i < ps.length), ps[i].2 = .pushed (decide (σ.length + i < N)) := by
  induction ps generalizing σ vs with
  | nil =>
    rw [h.ends]
    cases vs with
    | nil => exact ⟨by simp [List.take_of_length_le hσ], fun i hi => by cases hi⟩
    | cons => cases hp
  | cons p ps ih =>
    cases vs with
    | nil => cases hp
    | cons v vs =>
      obtain ⟨o, r⟩ := p
      obtain ⟨σ₁, h1, h2⟩ := h.first
      simp only [List.map_cons, List.cons.injEq] at hp
      obtain ⟨rfl, hp⟩ := hp
      have hne' := fun q hq => hne q (List.mem_cons_of_mem _ hq)
      cases r with
      | pushed ok =>
        cases ok with
        | true =>
          obtain ⟨h3, rfl⟩ : σ.length < N ∧ σ₁ = σ ++ [v] := h1
          obtain ⟨h4, h5⟩ := ih h2 hp hne' (by simp; omega)
          refine ⟨by simpa using h4, fun i hi => ?_⟩
          cases i with
          | zero => simp [h3]
          | succ i =>
            have := h5 i (by simpa using hi)
            simp only [List.length_append, List.length_cons, List.length_nil] at this
            simp only [List.getElem_cons_succ, this]
            congr 2
            rw [show σ.length + (0 + 1) + i = σ.length + (i + 1) by omega]
        | false =>
          obtain ⟨h3, rfl⟩ : σ.length = N ∧ σ₁ = σ := h1
          obtain ⟨h4, h5⟩ := ih h2 hp hne' hσ
          refine ⟨?_, fun i hi => ?_⟩
          · rw [h4, ← h3]; exact (List.take_left (l₁ := (σ₁ : List α))).trans (List.take_left (l₁ := (σ₁ : List α))).symm
          · cases i with
            | zero => simp [h3]
            | succ i =>
              have := h5 i (by simpa using hi)
              simp only [List.getElem_cons_succ, this]
              have h6 : ¬ σ₁.length + i < N := by omega
              have h7 : ¬ σ₁.length + (i + 1) < N := by omega
              simp [h6, h7]
      | threw => exact absurd rfl (hne _ (List.mem_cons_self ..))
      | _ => exact h1.elim

theorem does_pops {ps : List (Op α × Ret α)} {σ σ' : List α} (h : Does (spec α N) σ ps σ') (hp : ∀ p ∈ ps, p.1 = .pop ∧ p.2 ≠ .threw) (i : Nat)
    (hi : i < ps.length) : ps[i].2 = .popped σ[i]? := by
  induction ps generalizing σ i with
  | nil => cases hi
  | cons p ps ih =>
    have ho := hp p (List.mem_cons_self ..)
    have hp' := fun q hq => hp q (List.mem_cons_of_mem _ hq)
    obtain ⟨o, r⟩ := p
    obtain ⟨σ₁, h1, h2⟩ := h.first
    obtain ⟨ho, hne⟩ := ho
    simp only at ho hne
    subst ho
    cases r with
    | threw => exact absurd rfl hne
    | popped v =>
      cases v with
      | none =>
        obtain ⟨rfl, rfl⟩ : σ = [] ∧ σ₁ = [] := h1
        cases i with
        | zero => rfl
        | succ i => simpa using ih h2 hp' i (by simpa using hi)
      | some v =>
        have h1 : σ = v :: σ₁ := h1
        subst h1
        cases i with
        | zero => rfl
        | succ i => exact ih h2 hp' i (by simpa using hi)
    | _ => exact h1.elim

/-- **C72 (spsc_queue, first in first out).** Of the elements pushed one after the other, exactly the first `N` are accepted; they are popped in this order; then
the queue is empty. -/
theorem spsc_sequential_fifo (hN : Holds cfg N) (hx : TextExec cfg true (sequential cs) C) {vs : List α} {us ps : List (Op α × Ret α)}
    (hcs : cs.map (·.2) = us ++ ps) (hu : us.map (·.1) = vs.map .push) (hne : ∀ p ∈ us, p.2 ≠ .threw) (hp : ∀ p ∈ ps, p.1 = .pop ∧ p.2 ≠ .threw) :
    (∀ i (hi : i < us.length), us[i].2 = .pushed (decide (i < N))) ∧ ∀ i (hi : i < ps.length), ps[i].2 = .popped (vs.take N)[i]? := by
  obtain ⟨σ, h⟩ := spsc_sequential hN hx
  rw [hcs] at h
  obtain ⟨σ', h1, h2⟩ := h.append
  obtain ⟨rfl, h3⟩ := does_pushes h1 hu hne (Nat.zero_le _)
  exact ⟨fun i hi => by simpa using h3 i hi, does_pops h2 hp⟩

end Spsc.Code

/-! ### The freelists -/

namespace Freelist
variable {R : Rep} {n : Nat} {C : TConf R α} {cs : List (Nat × Op α × Ret)}

/-- **C72 (freelists).** Calls made one after the other, by whatever threads, have the results of the sequential pool of nodes. -/
theorem freelist_sequential (hf : R.Faithful) (hn : n ≤ R.limit) (hx : Exec R n (sequential cs) C) (hd : Disciplined (sequential cs)) :
    ∃ σ, Does (spec α R.fixed n) ⟨(List.range n).reverse, []⟩ (cs.map (·.2)) σ :=
  linearizable_sequential.1 (freelist_linearizable hf hn hx hd)

/-- Calls of `construct` that do not ask the allocator, with constructors that do not throw. -/
def Bounded (fixed : Bool) (p : Op α × Ret) : Prop := ∃ b v, p.1 = .construct b v false ∧ (fixed || b) = true

theorem does_constructs {fixed : Bool} {ps : List (Op α × Ret)} {σ σ' : Pool} (h : Does (spec α fixed n) σ ps σ') (hp : ∀ p ∈ ps, Bounded fixed p) :
    σ'.free = σ.free.drop ps.length ∧ ∀ i (hi : i < ps.length), ps[i].2 = .node σ.free[i]? := by
  induction ps generalizing σ with
  | nil => rw [h.ends]; exact ⟨rfl, fun i hi => by cases hi⟩
  | cons p ps ih =>
    obtain ⟨b, v, h1, h2⟩ := hp p (List.mem_cons_self ..)
    have hp' := fun q hq => hp q (List.mem_cons_of_mem _ hq)
    obtain ⟨o, r⟩ := p
    obtain ⟨σ₁, h3, h4⟩ := h.first
    have h3 : Step fixed σ o r σ₁ := h3
    simp only at h1
    subst h1
    cases h3 with
    | got h5 =>
      cases h5 with
      | reuse h6 =>
        obtain ⟨h7, h8⟩ := ih h4 hp'
        refine ⟨by rw [h7, h6]; rfl, fun i hi => ?_⟩
        rw [h6]
        cases i with
        | zero => rfl
        | succ i => simpa using h8 i (by simpa using hi)
      | fresh h6 => rw [h2] at h6; cases h6
    | noMemory h5 => rw [h2] at h5; cases h5
    | null h5 h6 =>
      obtain ⟨h7, h8⟩ := ih h4 hp'
      refine ⟨by rw [h7, h6]; simp, fun i hi => ?_⟩
      rw [h6]
      cases i with
      | zero => rfl
      | succ i => simpa [h6] using h8 i (by simpa using hi)

theorem does_destructs {fixed : Bool} {ms : List Nat} {σ σ' : Pool} (h : Does (spec α fixed n) σ (ms.map fun m => (.destruct m, .done)) σ') :
    σ'.free = ms.reverse ++ σ.free := by
  induction ms generalizing σ with
  | nil => rw [h.ends]; rfl
  | cons m ms ih =>
    obtain ⟨σ₁, h1, h2⟩ := h.first
    have h1 : Step fixed σ (.destruct m : Op α) .done σ₁ := h1
    cases h1 with
    | destruct => simpa using ih h2

/-- **C72 (freelists run out of memory exactly when they should).** Of the calls of `construct` made one after the other on a new freelist of `n` nodes, the first `n` return
different nodes, the others null (`oom_test`, freelist_test.cpp:99-109). -/
theorem freelist_sequential_oom (hf : R.Faithful) (hn : n ≤ R.limit) (hx : Exec R n (sequential cs) C) (hp : ∀ c ∈ cs, Bounded R.fixed c.2) (i : Nat)
    (hi : i < cs.length) : cs[i].2.2 = .node (if i < n then some (n - 1 - i) else none) := by
  have hd : Disciplined (sequential cs) := by
    intro h₁ t m h₂ he
    have : Event.inv t (.destruct m) ∈ sequential cs := by rw [he]; simp
    simp only [sequential, List.mem_flatMap, List.mem_cons, List.not_mem_nil, or_false] at this
    obtain ⟨c, hc, h | h⟩ := this
    · obtain ⟨b, v, h1, -⟩ := hp c hc
      rw [h1] at h
      cases h
    · cases h
  obtain ⟨σ, h⟩ := freelist_sequential hf hn hx hd
  have h1 := (does_constructs h (fun p hp' => by obtain ⟨c, hc, rfl⟩ := List.mem_map.1 hp'; exact hp c hc)).2 i (by simpa using hi)
  simp only [List.getElem_map] at h1
  rw [h1]
  congr 1
  split
  · rename_i h2
    rw [List.getElem?_reverse (by simpa using h2), List.getElem?_range (by simp; omega)]
    simp
  · rename_i h2
    simp
    omega

/-- **C72 (freelists, nodes given back are used again).** Nodes given back are handed out again, the last one first, before other nodes (`run_test`, freelist_test.cpp:52-83). -/
theorem freelist_sequential_reuse (hf : R.Faithful) (hn : n ≤ R.limit) (hx : Exec R n (sequential cs) C) (hd : Disciplined (sequential cs))
    {as bs : List (Op α × Ret)} {ms : List Nat} (hcs : cs.map (·.2) = as ++ (ms.map fun m => (.destruct m, .done)) ++ bs) (ha : ∀ p ∈ as, Bounded R.fixed p)
    (hb : ∀ p ∈ bs, Bounded R.fixed p) (i : Nat) (hi : i < bs.length) : bs[i].2 = .node (ms.reverse ++ (List.range n).reverse.drop as.length)[i]? := by
  obtain ⟨σ, h⟩ := freelist_sequential hf hn hx hd
  rw [hcs] at h
  obtain ⟨σ₂, h, h3⟩ := h.append
  obtain ⟨σ₁, h1, h2⟩ := h.append
  have h4 := (does_constructs h1 ha).1
  have h5 := does_destructs h2
  rw [(does_constructs h3 hb).2 i hi, h5, h4]

end Freelist
end Verif
