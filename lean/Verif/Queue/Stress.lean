import Verif.StressWeak
import Verif.Queue.ExampleWeak

/-!
# The stress test of the queue (C65)

test/queue_bounded_stress_test.cpp, test/queue_fixedsize_stress_test.cpp and test/queue_unbounded_stress_test.cpp
run `queue_stress_tester` (test_common.hpp) on the queue; here on its program text, interleaved, and under the
release/acquire memory model. `writer_threads`, `reader_threads` and `node_count` (test_common.hpp:25-31) are parameters, as is `bounded` (`Bounded`, :21).
-/

namespace Verif.Queue.Code
open Lin Text

variable {R : Rep}

/-- The result of `pop`, and the element. -/
def popTaken : Ret Nat → Option (Option Nat)
  | .popped v => some v
  | _ => none

/-- How the stress test uses the queue: `push`, `bounded_push` (test_common.hpp:58-69), `pop` (:84). -/
def stressSetup (R : Rep) (bounded : Bool) (writers readers count : Nat) : Stress.Setup (TChoice (SChoice R.K (Op Nat) Nat) (Op Nat)) (Ret Nat) where
  writers := writers
  readers := readers
  count := count
  push v := .call (.push bounded v)
  pop := .call .pop
  pushed := pushAnswer
  popped := popTaken

/-- Executions of the stress test, with a queue constructed for `n` elements. -/
abbrev StressRuns (R : Rep) (n : Nat) (bounded : Bool) (writers readers count : Nat) (h : History (Op Nat) (Ret Nat))
    (C : MConf (SSt R.K Nat × Stress.Vars) (User.PC Stress.At (TPC (SSt R.K Nat) (Loc R.K Nat) (SChoice R.K (Op Nat) Nat) (Ret Nat)))) : Prop :=
  Stress.Runs (program R Nat).mach (stressSetup R bounded writers readers count) (Program.ok fun _ _ => True) (SConf.initial R n).s h C

theorem stress_plays (R : Rep) (bd : Bool) (nw nr k : Nat) :
    User.Plays (program R Nat).mach (Stress.script (stressSetup R bd nw nr k)) (Program.ok fun _ _ => True) := by
  refine User.text_plays _ ?_ ?_
  · intro k ch hk
    cases k <;> simp only [Stress.script] at hk <;> cases hk <;> exact ⟨_, rfl⟩
  · intro t g k b y h
    rcases Stress.syncs_of_act h with h | h | h <;> exact h

theorem stress_reads (R : Rep) (bd : Bool) (nw nr k : Nat) :
    Stress.Reads (program R Nat).mach (stressSetup R bd nw nr k) id id (fun v => .push bd v) .pop pushAnswer popTaken (fun o r => (pushedBy o r).toList) (fun o r => (handedBy o r).toList) where
  pushes t s v s' p' e h := by
    simp only [stressSetup, Program.mach, Option.map_eq_some_iff] at h
    obtain ⟨y, _, h⟩ := h
    cases h
    exact ⟨_, rfl, rfl⟩
  pops t s s' p' e h := by
    simp only [stressSetup, Program.mach, Option.map_eq_some_iff] at h
    obtain ⟨y, _, h⟩ := h
    cases h
    exact ⟨_, rfl, rfl⟩
  pushed _ := rfl
  popped _ := rfl
  put_push v r := by
    cases r with
    | pushed ok => cases ok <;> simp [pushedBy, pushAnswer]
    | _ => simp [pushedBy, pushAnswer]
  put_pop r := by cases r <;> rfl
  get_push v r := by cases r <;> rfl
  get_pop r := by
    cases r with
    | popped x => cases x <;> simp [handedBy, popTaken]
    | _ => simp [handedBy, popTaken]
  inj v w h := by cases h; rfl
  ne v := by simp

theorem stress_law (fixed bd : Bool) : Stress.Law (spec Nat fixed) (fun v => .push bd v) .pop popTaken (fun o r => (pushedBy o r).toList) (fun o r => (handedBy o r).toList) (fun σ => (σ : List Nat)) where
  init := rfl
  pushes σ v r σ' hs := by
    cases r with
    | pushed ok =>
      rcases hs with ⟨rfl, rfl⟩ | ⟨rfl, _, rfl⟩
      · exact List.perm_append_comm (l₁ := σ) (l₂ := [v])
      · exact List.Perm.refl _
    | threw => cases hs; exact List.Perm.refl _
    | _ => exact hs.elim
  pops σ r σ' hs := by
    cases r with
    | popped x =>
      cases x with
      | none => obtain ⟨rfl, rfl⟩ := hs; exact List.Perm.refl _
      | some v => cases hs; exact List.Perm.refl _
    | threw => cases hs; exact List.Perm.refl _
    | _ => exact hs.elim
  empty σ r σ' hr hs := by
    cases r with
    | popped x =>
      cases x with
      | none => exact hs.2
      | some v => cases hr
    | _ => cases hr

/-- The checks at test_common.hpp:147-151 hold: no element is left in `data`; as many elements were pushed as popped, and as many as there are; each of them was popped once. -/
structure StressPassed (nw k : Nat) (h : History (Op Nat) (Ret Nat)) (g : Stress.Vars) : Prop where
  data : g.data = []
  pushed : g.push_count = nw * k
  popped : g.pop_count = nw * k
  values : (delivered h).Perm ((List.range (nw * k)).map (· + 1))

theorem StressPassed.of {Ch Rt : Type} {x : Stress.Setup Ch Rt} {b g} (h : Stress.Settled x (fun o r => (pushedBy o r).toList) (fun o r => (handedBy o r).toList) b g) :
    StressPassed x.writers x.count b g ∧ (delivered b).Perm (accepted b) := by
  have h1 := h.same
  have h2 := h.values
  rw [allPut_delivered] at h1 h2
  rw [allPut_accepted] at h1
  exact ⟨⟨h.data, h.pushed, h.popped, h2⟩, h1⟩

/-- The readers have been joined (test_common.hpp:143). -/
def Joined : Stress.At → Prop
  | .check | .counts | .passed => True
  | _ => False

section
variable {n nw nr k : Nat} {bd : Bool} {h : History (Op Nat) (Ret Nat)}
  {C : MConf (SSt R.K Nat × Stress.Vars) (User.PC Stress.At (TPC (SSt R.K Nat) (Loc R.K Nat) (SChoice R.K (Op Nat) Nat) (Ret Nat)))}

/-- The calls of the program are an execution of the queue. -/
theorem stress_exec (hx : StressRuns R n bd nw nr k h C) : TextExec R n h (User.baseOf (program R Nat).mach C) :=
  User.Runs.base (stress_plays R bd nw nr k) (stress_reads R bd nw nr k).user hx

theorem stress_lawful (hf : R.Faithful) (hn : n + 1 ≤ R.limit) :
    Stress.Lawful (program R Nat).mach (Program.ok fun _ _ => True) (SConf.initial R n).s id id (spec Nat R.fixed) (fun _ j i => j < i) := by
  intro h C hx
  rw [Example.map_strip_id]
  obtain ⟨L, hl⟩ := queue_text_linearizable hf hn hx
  exact ⟨L, hl.hb fun _ _ h => h⟩

/-- **C65 (stress test of the queue: no undefined behaviour).** -/
theorem queue_stress_no_undefined_behaviour (hf : R.Faithful) (hn : n + 1 ≤ R.limit) (hx : StressRuns R n bd nw nr k h C) (t : Nat) (a : Stress.At) :
    C.pc t ≠ .call a .err := by
  intro he
  have := queue_text_no_undefined_behaviour hf hn (stress_exec hx) t
  simp only [User.baseOf, User.pcOf, he] at this
  exact this rfl

/-- **C65 (the stress test of the queue never fails).** With at least one reader, no assertion and no check of the stress test fails. -/
theorem queue_stress_never_fails (hf : R.Faithful) (hn : n + 1 ≤ R.limit) (hr : 0 < nr) (hx : StressRuns R n bd nw nr k h C) (t : Nat) : C.pc t ≠ .at .failed := by
  refine Stress.Runs.not_failed (stress_plays R bd nw nr k) (stress_reads R bd nw nr k) (stress_law R.fixed bd) (stress_lawful hf hn) ?_ hx t
  intro h C hx hm
  exact ⟨nw, Stress.Runs.seen (stress_plays R bd nw nr k) (stress_reads R bd nw nr k) (stress_law R.fixed bd) (stress_lawful hf hn) hx hm (Nat.le_refl _)
    (Nat.lt_add_of_pos_right hr)⟩

/-- **C65 (the end of the stress test of the queue).** With at least one reader, once the readers have been joined, the checks hold, and the queue is empty (:148). -/
theorem queue_stress_passed (hf : R.Faithful) (hn : n + 1 ≤ R.limit) (hr : 0 < nr) (hx : StressRuns R n bd nw nr k h C) {a : Stress.At} (hp : C.pc (nw + nr) = .at a)
    (ha : Joined a) : StressPassed nw k h C.s.2 ∧ HoldsW R C.s.1 [] := by
  have hm : Stress.MainR (Stress.places C (stressSetup R bd nw nr k).main) := by
    show Stress.MainR (C.pc (nw + nr)).here
    rw [hp]
    cases a <;> trivial
  obtain ⟨h1, h2⟩ := Stress.Runs.settled (stress_plays R bd nw nr k) (stress_reads R bd nw nr k) (stress_law R.fixed bd) (stress_lawful hf hn) hx hm
    (Stress.Runs.seen (stress_plays R bd nw nr k) (stress_reads R bd nw nr k) (stress_law R.fixed bd) (stress_lawful hf hn) hx hm (Nat.le_refl _)
      (Nat.lt_add_of_pos_right hr))
  rw [Example.map_strip_id] at h1
  obtain ⟨h3, h4⟩ := StressPassed.of h1
  refine ⟨h3, ?_⟩
  obtain ⟨vs, hv, hcons⟩ := queue_text_conservation hf hn (stress_exec hx) (fun t => by
    obtain ⟨a, ha⟩ := h2 t
    simp only [User.baseOf, ha]; rfl)
  have : vs = [] := by
    have := (hcons.trans h4.symm).length_eq
    simp at this
    exact this
  rw [this] at hv
  exact hv

end

/-! ### Release/acquire memory -/

/-- As `stressSetup`; a writer releases its view by `writers_finished += 1` (test_common.hpp:72), a reader that reads `writer_threads` (:104) acquires the views of all. -/
def raStressSetup (R : Rep) (bounded : Bool) (writers readers count : Nat) :
    Stress.Setup (RaChoice R (SChoice R.K (Op Nat) Nat) (Op Nat)) (Ret Nat × View Queue.Loc) where
  writers := writers
  readers := readers
  count := count
  push v := .call (.push bounded v)
  pop := .call .pop
  pushed r := pushAnswer r.1
  popped r := popTaken r.1
  exit := [.post]
  see := (List.range writers).map .wait

abbrev RaStressConf (R : Rep) := MConf (RaSt R Nat × Stress.Vars) (User.PC Stress.At (TPC (SSt R.K Nat) (Loc R.K Nat) (SChoice R.K (Op Nat) Nat) (Ret Nat)))

/-- Executions of the stress test under the release/acquire memory model. -/
abbrev RaStressRuns (R : Rep) (n : Nat) (bounded : Bool) (writers readers count : Nat) (h : History (Op Nat × View Queue.Loc) (Ret Nat × View Queue.Loc))
    (C : RaStressConf R) : Prop :=
  Stress.Runs (raMach true (program R Nat)) (raStressSetup R bounded writers readers count) raOk (RaConf.initial R Nat n).s h C

variable {n nw nr k : Nat} {bd : Bool} {h : History (Op Nat × View Queue.Loc) (Ret Nat × View Queue.Loc)} {C : RaStressConf R}

theorem ra_stress_plays (R : Rep) (bd : Bool) (nw nr k : Nat) : User.Plays (raMach true (program R Nat)) (Stress.script (raStressSetup R bd nw nr k)) raOk where
  call k ch hk t s s' p' e h := by
    cases k <;> simp only [Stress.script] at hk <;> cases hk
    all_goals
      obtain ⟨-, h1, v, h2⟩ := ra_call h
      exact ⟨h1, _, h2⟩
  step t s p ch s' p' e hp h := (ra_inside hp h).2
  sync t g k b y hy ch hch s := by
    have : ch = .post ∨ ∃ i, ch = .wait i := by
      rcases Stress.syncs_of_act hy with h | h | h <;> rw [h] at hch
      · simp at hch
      · exact .inl (List.mem_singleton.1 hch)
      · obtain ⟨i, _, h⟩ := List.mem_map.1 hch
        exact .inr ⟨i, h.symm⟩
    rcases this with rfl | ⟨i, rfl⟩
    · exact ⟨trivial, fun t s' p' e h => (ra_post h).2⟩
    · exact ⟨trivial, fun t s' p' e h => (ra_wait h).2.2⟩

theorem ra_stress_reads (R : Rep) (bd : Bool) (nw nr k : Nat) :
    Stress.Reads (raMach true (program R Nat)) (raStressSetup R bd nw nr k) Prod.fst Prod.fst (fun v => .push bd v) .pop pushAnswer popTaken (fun o r => (pushedBy o r).toList) (fun o r => (handedBy o r).toList) where
  pushes t s v s' p' e h := by
    obtain ⟨-, -, v, h⟩ := ra_call h
    exact ⟨_, h, rfl⟩
  pops t s s' p' e h := by
    obtain ⟨-, -, v, h⟩ := ra_call h
    exact ⟨_, h, rfl⟩
  pushed _ := rfl
  popped _ := rfl
  put_push := (stress_reads R bd nw nr k).put_push
  put_pop := (stress_reads R bd nw nr k).put_pop
  get_push := (stress_reads R bd nw nr k).get_push
  get_pop := (stress_reads R bd nw nr k).get_pop
  inj := (stress_reads R bd nw nr k).inj
  ne := (stress_reads R bd nw nr k).ne

theorem ra_stress_clocked (R : Rep) (bd : Bool) (nw nr k : Nat) :
    Stress.Clocked (raMach true (program R Nat)) (raStressSetup R bd nw nr k) .post .wait (fun w t => (w.view t).vc) (fun w => w.posts.map (·.vc))
      (fun e => (evView e).vc) where
  other t s p ch s' p' e h u hu := by rw [(ra_view h).1 u hu]
  mono t s p ch s' p' e h := (ra_view h).2.1.2
  event t s p ch s' p' e h := by rw [((ra_view h).2.2.2 _ rfl).1]
  inside t s p ch s' p' e hp h := by rw [(ra_inside hp h).1]
  call k ch hk t s s' p' e h := by
    cases k <;> simp only [Stress.script] at hk <;> cases hk
    all_goals rw [(ra_call h).1]
  posting t s s' p' e h := by rw [(ra_post h).1]; simp
  waiting t s k s' p' e h := by
    obtain ⟨h1, ⟨v, h2, h3⟩, -⟩ := ra_wait h
    rw [h1]
    exact ⟨rfl, v.vc, by simp [h2], h3.2⟩
  exits := rfl
  sees := rfl

/-- The calls of the program are an execution of the queue. -/
theorem ra_stress_exec (hx : RaStressRuns R n bd nw nr k h C) : RaTextExec R true n h (User.baseOf (raMach true (program R Nat)) C) :=
  User.Runs.base (ra_stress_plays R bd nw nr k) (ra_stress_reads R bd nw nr k).user hx

theorem ra_stress_lawful (hf : R.Faithful) (hn : n + 1 ≤ R.limit) :
    Stress.Lawful (raMach true (program R Nat)) raOk (RaConf.initial R Nat n).s Prod.fst Prod.fst (spec Nat R.fixed) HB := by
  intro h C hx
  rw [map_strip_fst]
  exact queue_ra_text_linearizable hf hn hx

theorem ra_stress_seen (hf : R.Faithful) (hn : n + 1 ≤ R.limit) (hx : RaStressRuns R n bd nw nr k h C) (hm : Stress.MainR (Stress.places C (nw + nr))) {t : Nat} (ht : nw ≤ t)
    (ht' : t < nw + nr) : Stress.Seen Prod.fst Prod.fst (fun v => .push bd v) .pop popTaken (HB h) h t :=
  Stress.Runs.seen_ra (ra_stress_plays R bd nw nr k) (ra_stress_reads R bd nw nr k) (stress_law R.fixed bd) (ra_stress_lawful hf hn) (ra_stress_clocked R bd nw nr k) rfl
    hx hm ht ht'

/-- **C65 (stress test of the queue under release/acquire memory: no undefined behaviour).** -/
theorem queue_ra_stress_no_undefined_behaviour (hf : R.Faithful) (hn : n + 1 ≤ R.limit) (hx : RaStressRuns R n bd nw nr k h C) (t : Nat) (a : Stress.At) :
    C.pc t ≠ .call a .err := by
  intro he
  have := queue_ra_text_no_undefined_behaviour hf hn (ra_stress_exec hx) t
  simp only [User.baseOf, User.pcOf, he] at this
  exact this rfl

/-- **C65 (the stress test of the queue never fails under release/acquire memory).** -/
theorem queue_ra_stress_never_fails (hf : R.Faithful) (hn : n + 1 ≤ R.limit) (hr : 0 < nr) (hx : RaStressRuns R n bd nw nr k h C) (t : Nat) : C.pc t ≠ .at .failed := by
  refine Stress.Runs.not_failed (ra_stress_plays R bd nw nr k) (ra_stress_reads R bd nw nr k) (stress_law R.fixed bd) (ra_stress_lawful hf hn) ?_ hx t
  intro h C hx hm
  exact ⟨nw, ra_stress_seen hf hn hx hm (Nat.le_refl _) (by omega)⟩

/-- **C65 (the end of the stress test of the queue under release/acquire memory).** -/
theorem queue_ra_stress_passed (hf : R.Faithful) (hn : n + 1 ≤ R.limit) (hr : 0 < nr) (hx : RaStressRuns R n bd nw nr k h C) {a : Stress.At} (hp : C.pc (nw + nr) = .at a)
    (ha : Joined a) : StressPassed nw k (bare h) C.s.2 ∧ HoldsW R C.s.1.s [] := by
  have hm : Stress.MainR (Stress.places C (nw + nr)) := by
    show Stress.MainR (C.pc (nw + nr)).here
    rw [hp]
    cases a <;> trivial
  obtain ⟨h1, h2⟩ := Stress.Runs.settled (ra_stress_plays R bd nw nr k) (ra_stress_reads R bd nw nr k) (stress_law R.fixed bd) (ra_stress_lawful hf hn) hx hm
    (ra_stress_seen hf hn hx hm (Nat.le_refl _) (by omega))
  rw [map_strip_fst] at h1
  obtain ⟨h3, h4⟩ := StressPassed.of h1
  refine ⟨h3, ?_⟩
  obtain ⟨vs, hv, hcons⟩ := queue_ra_text_conservation hf hn (ra_stress_exec hx) (fun t => by
    obtain ⟨a, ha⟩ := h2 t
    simp only [User.baseOf, ha]; rfl)
  have : vs = [] := by
    have := (hcons.trans h4.symm).length_eq
    simp at this
    exact this
  rw [this] at hv
  exact hv

end Verif.Queue.Code
