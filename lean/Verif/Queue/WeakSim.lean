import Verif.Queue.WeakRmw
import Verif.Queue.Reach

/-!
# Queue under release/acquire memory: the invariant holds in every execution (proof)
-/

namespace Verif.Queue
open Lin

variable {α : Type} {cfg : Cfg}

theorem addNodes_raw {h : Heap α} {m : Nat} (k : Nat) (hm : h.nalloc + k ≤ m) :
    (h.addNodes k).next m = h.next m ∧ (h.addNodes k).nver m = h.nver m := by
  induction k with
  | zero => exact ⟨rfl, rfl⟩
  | succ k ih =>
    have h1 := ih (by omega)
    have h2 : m ≠ (h.addNodes k).nalloc := by rw [Heap.addNodes_nalloc]; omega
    simp [Heap.addNodes, Heap.deallocUnsafe, Heap.setNextPtr, Heap.malloc, upd_ne _ _ _ h2, h1]

theorem M1.initial (n : Nat) : M1 cfg.M (WConf.initial (α := α) cfg n).s.msg (WConf.initial (α := α) cfg n).s.top
    (WConf.initial (α := α) cfg n).s.pl ⟨fun _ => n, fun _ => 0, 0⟩ := by
  obtain ⟨e1, e2, e3, e4, e5⟩ := ofHeap_initial (α := α) cfg n
  have hsi := (GInv.initial (α := α) cfg n).si
  refine ⟨Nat.le_refl _, Nat.le_refl _, Nat.zero_le _, ?_, rfl, ?_, ?_, ?_, ?_, rfl, ?_, ?_, ?_, ?_, ?_, ?_, ?_, ?_, ?_, ?_⟩
  · intro i j _ h1 h2; simp only at h2; omega
  · intro k hk
    simp only [WConf.initial, Nat.le_zero] at hk; subst hk
    simp [WConf.initial, St.word, St.headSnap, Conf.initial, e1, e3]
  · intro k hk
    simp only [WConf.initial, Nat.le_zero] at hk; subst hk
    simp [WConf.initial, St.word, St.tailSnap, Conf.initial, e2, e4]
  · intro i _
    refine ⟨Nat.zero_le _, ?_⟩
    simp [WConf.initial, St.word, St.nextSnap, Conf.initial, e5]
  · intro i hi; simp only at hi; omega
  · intro i _ hi; simp only at hi; omega
  · intro i j h1 h2; simp only at h2; omega
  · intro m j _; exact hsi.ntag m
  · intro m i j _ _; exact Nat.le_refl _
  · intro l i _ hi; simp only [WConf.initial, Nat.le_zero] at hi; omega
  · intro k hk; simp only [WConf.initial, Nat.le_zero] at hk; omega
  · intro k j hk hj; simp only [WConf.initial, Nat.le_zero] at hk; omega
  · intro j hj; simp only at hj; omega
  · intro i m _ h1 h2; simp only [WConf.initial, Nat.le_zero] at h2; omega
  · intro m j h; simp [WConf.initial] at h

theorem WInv.initial (n : Nat) :
    WInv cfg (WConf.initial cfg n : WConf α) (initG n) ⟨fun _ => n, fun _ => 0, 0⟩ (QC.initial α) := by
  have hg := GInv.initial (α := α) cfg n
  have hle : ∀ {v : View Loc}, (WConf.initial (α := α) cfg n).s.Has v → v = .bot := by
    intro v hv
    cases hv with
    | thread | msg => rfl
    | post h => simp [WConf.initial] at h
  have hkn : ∀ m, (∀ i ≤ 0, n = m → i < 0) → kn (WConf.initial (α := α) cfg n).s.acc (WConf.initial (α := α) cfg n).s.top
      ⟨fun _ => n, fun _ => 0, 0⟩ .bot m := fun m hm => ⟨View.knows_nil _, Nat.le_refl _, hm⟩
  have hfree : ∀ m, (initG n).own m = .free → m ≠ n := by
    rintro m hm rfl; simp [initG] at hm
  have hF : ∀ m, (Conf.initial (α := α) cfg n).s.heap.pool.ptr = some m → m ∈ (initG n).F := by
    intro m hm
    have := hg.si.heap.chain
    rw [hm] at this
    cases hF : (initG n).F with
    | nil => rw [hF] at this; cases this
    | cons x F => rw [hF] at this; have := this.1; simp at this; simp [this]
  have hFkn : ∀ m, m ∈ (initG n).F → kn (WConf.initial (α := α) cfg n).s.acc (WConf.initial (α := α) cfg n).s.top
      ⟨fun _ => n, fun _ => 0, 0⟩ .bot m := fun m hm =>
    hkn m fun i _ h => absurd h.symm (hfree m ((hg.si.heap.fmem m).2 hm))
  refine ⟨hg.si, rfl, .initial n, fun l => rfl, ?_, ⟨?_, ?_, ?_, ?_, ?_, ?_, ?_, ?_⟩, rfl, rfl, ?_, fun t => ⟨rfl, rfl⟩⟩
  · intro v hv
    rw [hle hv]
    refine ⟨fun l => Nat.zero_le _, fun l _ i hi => ?_⟩
    exact .refl _
  · intro m t hm
    simp only [initG, initOwn] at hm
    split at hm
    · simp at hm
    · split at hm <;> simp at hm
  · intro m hm
    exact hFkn m ((hg.si.heap.fmem m).1 hm)
  · intro m hm
    have h1 := (hg.si.heap.raw m).1 hm
    obtain ⟨e1, e2, e3, e4, e5⟩ := ofHeap_initial (α := α) cfg n
    have hmn : m ≠ n := by rintro rfl; simp [initG] at hm
    have h2 : (Heap.empty : Heap α).nalloc + (n + 1) ≤ m := by
      simp only [Conf.initial, e5] at h1
      simpa [Heap.initial, Heap.addNodes_nalloc] using h1
    obtain ⟨h3, h4⟩ := addNodes_raw (h := (Heap.empty : Heap α)) (n + 1) h2
    refine ⟨rfl, rfl, ?_, ?_, fun i _ => hmn.symm⟩
    · simp only [WConf.initial, Conf.initial, e5, upd_ne _ _ _ hmn]; exact h3
    · simp only [WConf.initial, Conf.initial, e5, upd_ne _ _ _ hmn]; exact h4
  · intro i _
    refine ⟨Nat.le_refl _, hg.si.heap.tag, fun m hm => ?_⟩
    have h1 := hF m hm
    have h2 := (hg.si.heap.fmem m).2 h1
    refine ⟨?_, fun _ => h1⟩
    exact hg.si.heap.lt (by rw [h2]; simp)
  · intro i _ m hm _
    exact hFkn m (hF m hm)
  · intro t o m h; simp [WConf.initial, specSnap] at h
  · intro i _ h2; simp only at h2; simp only [WConf.initial] at *; omega
  · exact View.knows_nil _
  · intro k _; rfl

/-- Every execution satisfies the invariant and is an execution of the canonical weak queue. -/
theorem WFreshExec.inv {n : Nat} {h} {C : WConf α} (hx : WFreshExec cfg true n h C) :
    ∃ g gh c, WInv cfg C g gh c ∧ QReach cfg.fixed (h.map evTr) c := by
  induction hx with
  | refl => exact ⟨_, _, _, .initial n, .init⟩
  | step _ hs hok ih =>
    obtain ⟨g, gh, c, hi, hr⟩ := ih
    obtain ⟨g', gh', c', hm, hi'⟩ := hi.step hs hok
    refine ⟨g', gh', c', hi', ?_⟩
    have := hr.move hm
    rename_i e _
    cases e <;> simpa using this

end Verif.Queue
