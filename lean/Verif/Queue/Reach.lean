import Verif.Queue.Sim
import Verif.Queue.Observe

/-!
# Queue: the invariant holds in every execution (proof)
-/

namespace Verif.Queue
open Lin

variable {α : Type}

/-- Initial ghosts: node `n` is the dummy, the others are free. -/
def initG (n : Nat) : G :=
  ⟨fun m => if m = n then .str else initOwn n m, downFrom 0 n, [n], fun _ => []⟩

theorem addNodes_next_tag (cfg : Cfg) {h : Heap α} (ht : TagsOk cfg h) (k : Nat) : TagsOk cfg (h.addNodes k) := by
  induction k with
  | zero => exact ht
  | succ k ih =>
    intro m
    have := ih m
    simp only [Heap.addNodes, Heap.deallocUnsafe, Heap.setNextPtr, Heap.malloc, upd_apply]
    split <;> simp_all

theorem ofHeap_initial (cfg : Cfg) (n : Nat) :
    (St.ofHeap cfg (Heap.initial (n + 1)) : St α).head = ⟨some n, 0⟩ ∧
    (St.ofHeap cfg (Heap.initial (n + 1)) : St α).tail = ⟨some n, 0⟩ ∧
    (St.ofHeap cfg (Heap.initial (n + 1)) : St α).headVer = 0 ∧
    (St.ofHeap cfg (Heap.initial (n + 1)) : St α).tailVer = 0 ∧
    (St.ofHeap cfg (Heap.initial (n + 1)) : St α).heap =
      { (Heap.initial (n + 1) : Heap α) with
        pool := ⟨((Heap.initial (n + 1) : Heap α).next n).ptr, cfg.nextTag (Heap.initial (n + 1) : Heap α).pool.tag⟩
        poolVer := (Heap.initial (n + 1) : Heap α).poolVer + 1
        next := upd (Heap.initial (n + 1) : Heap α).next n ⟨none, 0⟩
        nver := upd (Heap.initial (n + 1) : Heap α).nver n 0 } := by
  have hp : (Heap.initial (n + 1) : Heap α).pool.ptr = some n := by
    simp [Heap.initial, Heap.addNodes, Heap.deallocUnsafe, Heap.addNodes_nalloc, Heap.empty]
  simp [St.ofHeap, Heap.allocUnsafe, hp]

theorem GInv.initial (cfg : Cfg) (n : Nat) :
    GInv cfg (Conf.initial cfg n : Conf α) (initG n) (CState.initial (spec α cfg.fixed)) := by
  have h0 := HInv.initial (α := α) cfg (n + 1)
  obtain ⟨e1, e2, e3, e4, e5⟩ := ofHeap_initial (α := α) cfg n
  have hp : (Heap.initial (n + 1) : Heap α).pool.ptr = some n := by
    simp [Heap.initial, Heap.addNodes, Heap.deallocUnsafe, Heap.addNodes_nalloc, Heap.empty]
  have hc := h0.chain
  rw [hp] at hc
  have hdf : downFrom 0 (n + 1) = n :: downFrom 0 n := by simp [downFrom]
  rw [hdf] at hc
  have hnd := h0.fnodup
  rw [hdf, List.nodup_cons] at hnd
  refine ⟨⟨?_, ?_, ?_, ?_, ?_, ?_, ?_, ?_, ?_⟩, fun t => ⟨rfl, rfl⟩⟩
  · simp only [Conf.initial, e5]
    refine ⟨?_, hnd.2, ?_, ?_, fun _ => List.nodup_nil, ?_, ?_, ?_⟩
    · refine hc.2.congr fun m hm => ?_
      have : m ≠ n := by rintro rfl; exact hnd.1 hm
      simp [upd_ne _ _ _ this]
    · intro m
      simp only [initG, mem_downFrom, initOwn]
      split
      · simp; omega
      · split <;> simp <;> omega
    · intro t m; simp [initG, initOwn]; grind
    · intro m
      have := h0.raw m
      simp only [initG, initOwn] at this ⊢
      split
      · subst m; simp; simp at this; omega
      · rw [← this]; split <;> split <;> simp <;> omega
    · have := h0.tag
      simp [Cfg.nextTag, this]
    · intro m hm
      refine h0.fdata m ?_
      simp only [initG, initOwn] at hm ⊢
      split at hm
      · simp at hm
      · revert hm; split <;> split <;> simp <;> omega
  · simp only [Conf.initial, e1, e5]
    exact ⟨rfl, by simp; rfl⟩
  · simp [initG]
  · intro m
    simp only [initG, List.mem_singleton, initOwn]
    split
    · simp [*]
    · split <;> simp [*]
  · simp [Conf.initial, e1, e3]
  · simp [Conf.initial, e2, e4]
  · simp only [Conf.initial, e5]
    have h1 : TagsOk cfg (Heap.initial (n + 1) : Heap α) :=
      addNodes_next_tag cfg (h := Heap.empty) (fun m => by simp [Heap.empty]) _
    intro m
    have := h1 m
    simp only [upd_apply]; split <;> simp_all
  · rfl
  · exact ⟨[], n, by simp [Conf.initial, e2], .inl rfl⟩

/-- Every execution without a complete tag wrap in a window satisfies the invariant and is an execution of
the canonical atomic queue. -/
theorem FreshExec.inv {cfg : Cfg} {n : Nat} {h} {C : Conf α} (hx : FreshExec cfg n h C) :
    ∃ g c, GInv cfg C g c ∧ CReach (spec α cfg.fixed) h c := by
  induction hx with
  | refl => exact ⟨_, _, .initial cfg n, .init⟩
  | step _ hs hf ih =>
    obtain ⟨g, c, hi, hr⟩ := ih
    obtain ⟨g', c', hi', hm, _⟩ := hi.step hs hf
    exact ⟨g', c', hi', hr.move hm⟩

theorem FreshExec.exec {cfg : Cfg} {n : Nat} {h} {C : Conf α} (hx : FreshExec cfg n h C) : Exec cfg n h C :=
  hx.mono fun _ _ _ _ => trivial

/-- If the tail lags behind, the push that linked the last node is about to swing the tail. -/
def LagOk (C : Conf α) : Prop :=
  ∀ x, C.s.tail.ptr = some x → (C.s.heap.next x).ptr ≠ none →
    ∃ t T y, C.pc t = .swing .donePush T y ∧ T.ver = C.s.tailVer

theorem LagOk.step {cfg : Cfg} {C : Conf α} {g : G} {c : CState (spec α cfg.fixed)} (hi : GInv cfg C g c)
    (hlag : LagOk C) {t : Nat} {ch : QChoice α} {s' p' e}
    (hs : tstep cfg t C.s (C.pc t) ch = some (s', p', e)) (hf : fresh cfg C.s (C.pc t)) :
    LagOk ⟨s', upd C.pc t p'⟩ := by
  obtain ⟨g', c', hi', hm, hg, _⟩ := hi.step hs hf
  have key : s'.tail = C.s.tail → s'.tailVer = C.s.tailVer →
      (∀ x, C.s.tail.ptr = some x → s'.heap.next x = C.s.heap.next x) →
      (∀ T y, C.pc t = .swing .donePush T y → T.ver ≠ C.s.tailVer) → LagOk ⟨s', upd C.pc t p'⟩ := by
    intro h1 h2 h3 h4 x hx hn
    simp only [h1] at hx
    simp only [h3 x hx] at hn
    obtain ⟨t', T, y, h5, h6⟩ := hlag x hx hn
    refine ⟨t', T, y, ?_, by simp [h2, h6]⟩
    have : t' ≠ t := by rintro rfl; exact h4 T y h5 h6
    simp [upd_ne _ _ _ this, h5]
  have hstr : ∀ x, C.s.tail.ptr = some x → g.own x = .str := fun x hx => (hi.si.mem x).2 (hi.si.tail_mem hx)
  have hl := hi.loc t
  have hfr : ∀ x, C.s.tail.ptr = some x → s'.tail = C.s.tail → s'.heap.next x = C.s.heap.next x ∨
      s'.heap.nver x = C.s.heap.nver x + 1 := by
    intro x hx ht
    have h1 := hstr x hx
    have h2 := (hi'.si.mem x).2 (hi'.si.tail_mem (by simp only [ht]; exact hx))
    rcases (hg.frame x (by simp [h1]) (by simp [h2])).2 with h | h
    · exact .inl h.1
    · exact .inr h.2.2
  generalize hp : C.pc t = p at hs hl hf key
  have ht := trans_of_tstep hs
  cases ht with
  | pCas h1 h2 =>
    rename_i n T N x
    obtain ⟨hl1, x', hx, hN, hNv, hlast⟩ := hl
    obtain ⟨_, _, hx3, _, _⟩ := id hx
    rw [h1] at hx3
    cases hx3
    have hver : C.s.heap.nver x = N.ver := by
      refine ver_eq_of_fresh hN (hf x h1) ?_
      have h3 := hi.si.ntag x
      rw [h2, hNv] at h3
      exact h3.symm
    intro _ _ _
    exact ⟨t, T, n, by simp, (hlast hver).2.symm⟩
  | swing h1 =>
    rename_i k T y
    obtain ⟨⟨x, hx, hy⟩, hk⟩ := hl
    have hver : C.s.tailVer = T.ver :=
      ver_eq_of_fresh hx.1 hf (by rw [← hi.si.ttag, ← hx.2.1, h1])
    obtain ⟨_, _, h3⟩ := hi.si.swing (t := t) (by rw [h1, hx.2.2.1]) (hy hver.symm)
    intro z hz hn
    simp only at hz hn
    cases hz
    exact absurd (Chain.last_null hi.si.chain h3) hn
  | swingFail h1 =>
    rename_i k T y
    obtain ⟨⟨x, hx, hy⟩, hk⟩ := hl
    refine key rfl rfl (fun _ _ => rfl) ?_
    rintro T' y' h2 h3
    cases h2
    exact h1 (hx.2.2.2.2 h3)
  | nstore =>
    rename_i b v n o
    refine key rfl rfl (fun x hx => ?_) (by simp)
    have : g.own n = .thr t := (hi.si.heap.hmem t n).2 (by simp [hl.1])
    have h2 := hstr x hx
    simp only; rw [upd_ne]; rintro rfl; simp [this] at h2
  | allocMore h | allocGot h | allocNull h | allocBad h =>
    refine key rfl rfl (fun x hx => ?_) (by simp)
    have h1 := hstr x hx
    have h2 := (aStep_tags hi.si.ntag h).2 x (hi.si.heap.lt (by simp [h1]))
    rcases hfr x hx rfl with h3 | h3
    · exact h3
    · simp only at h3; omega
  | freeMore h | freeDone h =>
    refine key rfl rfl (fun x hx => ?_) (by simp)
    have h1 := hstr x hx
    have h2 := (dStep_tags hi.si.ntag h).2 x (hi.si.heap.lt (by simp [h1]))
    rcases hfr x hx rfl with h3 | h3
    · exact h3
    · simp only at h3; omega
  | rsv =>
    refine key rfl rfl (fun x hx => ?_) (by simp)
    have h1 := hstr x hx
    have h2 := hi.si.heap.lt (by simp [h1] : g.own x ≠ .raw)
    simp only [Heap.malloc]; rw [upd_ne _ _ _ (by omega)]
  | _ => exact key rfl rfl (fun _ _ => rfl) (by simp)

theorem FreshExec.lagOk {cfg : Cfg} {n : Nat} {h} {C : Conf α} (hx : FreshExec cfg n h C) : LagOk C := by
  induction hx with
  | refl =>
    intro x hx hn
    obtain ⟨e1, e2, e3, e4, e5⟩ := ofHeap_initial (α := α) cfg n
    simp only [Conf.initial, e2, e5] at hx hn
    cases hx
    simp at hn
  | step hx hs hf ih =>
    obtain ⟨g, c, hi, hr⟩ := FreshExec.inv hx
    exact LagOk.step hi ih hs hf

/-- An execution in which no version reaches the number of tags is an execution without a complete wrap. -/
theorem Exec.fresh {cfg : Cfg} {n : Nat} {h} {C : Conf α} (hx : Exec cfg n h C)
    (hw : cfg.M = 0 ∨ (C.s.headVer < cfg.M ∧ C.s.tailVer < cfg.M ∧ C.s.heap.poolVer < cfg.M ∧
      ∀ x < C.s.heap.nalloc, C.s.heap.nver x < cfg.M)) : FreshExec cfg n h C := by
  induction hx with
  | refl => exact .refl _
  | @step h C t ch s' p' e hx hs _ ih =>
    obtain ⟨v1, v2, v3, v4, v5⟩ := tstep_ver hs
    have hw' : cfg.M = 0 ∨ (C.s.headVer < cfg.M ∧ C.s.tailVer < cfg.M ∧ C.s.heap.poolVer < cfg.M ∧
        ∀ x < C.s.heap.nalloc, C.s.heap.nver x < cfg.M) := by
      rcases hw with hw | ⟨h1, h2, h3, h4⟩
      · exact .inl hw
      · simp only at h1 h2 h3 h4
        refine .inr ⟨by omega, by omega, by omega, fun x hx => ?_⟩
        have := h4 x (by omega)
        have := v5 x hx
        omega
    have hfx := ih hw'
    refine .step hfx hs ?_
    obtain ⟨g, c, hi, _⟩ := FreshExec.inv hfx
    have hl := hi.loc t
    show Queue.fresh cfg C.s (C.pc t)
    generalize C.pc t = p at hl
    rcases hw' with hM | ⟨h1, h2, h3, h4⟩
    · cases p <;> simp [Queue.fresh, hM]
      rename_i a; cases a <;> simp [aFresh, hM]
    · cases p <;> simp only [Queue.fresh] <;> try omega
      · rename_i a; cases a <;> simp only [aFresh]; omega
      · intro x hx
        obtain ⟨_, x', h6, _⟩ := hl
        obtain ⟨_, _, h7, h8, _⟩ := h6
        rw [hx] at h7
        cases h7
        have := h4 x h8
        omega

end Verif.Queue
