import Verif.ExampleEnds
import Verif.ExampleOwn
import Verif.Queue.Aba
import Verif.Queue.Delay
import Verif.Queue.Example

/-!
# examples/queue.cpp ends (C77)

Nothing further of the code is modelled here. What the queue does for the program: calls return because only finitely many calls change the queue (C76).
-/

namespace Verif.Queue.Code
open Lin Text Example

variable {R : Rep} {n np nc k : Nat}

/-- An execution without end of queue.cpp, on a fair scheduler, in which no exception is thrown (`FairRun`), the allocator always has memory, and
compare-exchanges fail spuriously only finitely often. -/
structure QueueRun (R : Rep) (n np nc k : Nat) (C : Nat → MConf (SSt R.K Nat × Vars) (Example.PC (TPC (SSt R.K Nat) (Loc R.K Nat) (SChoice R.K (Op Nat) Nat) (Ret Nat))))
    (t : Nat → Nat) (ch : Nat → Example.Choice (TChoice (SChoice R.K (Op Nat) Nat) (Op Nat))) (e : Nat → Option (Event (Op Nat) (Ret Nat))) : Prop
    extends FairRun (program R Nat).mach (exampleSetup R np nc k) (Program.ok fun _ _ => True) (SConf.initial R n).s C t ch e where
  room : ∀ i, (C i).s.1.mem.nalloc < R.limit
  spurious : ∃ N, ∀ i, N ≤ i → ∀ c, ch i = .inner c → casFails (Mach.pcOf (program R Nat).mach ((C i).pc (t i))) c = false

section
variable {C : Nat → MConf (SSt R.K Nat × Vars) (Example.PC (TPC (SSt R.K Nat) (Loc R.K Nat) (SChoice R.K (Op Nat) Nat) (Ret Nat)))}
    {t : Nat → Nat} {ch : Nat → Example.Choice (TChoice (SChoice R.K (Op Nat) Nat) (Op Nat))} {e : Nat → Option (Event (Op Nat) (Ret Nat))}

namespace QueueRun
variable (hr : QueueRun R n np nc k C t ch e)
include hr

theorem inv (i : Nat) : Inv (program R Nat).mach (exampleSetup R np nc k) (fun v => .push false v) .pop popAnswer (fun o r => (pushedBy o r).toList) (fun o r => (handedBy o r).toList) (firstEvents e i) (C i) := by
  have := Runs.inv (example_plays R np nc k) (example_reads R np nc k) (forever_runs hr.exec hr.start i)
  rwa [map_strip_id] at this

/-- A response comes from the thread that is in the call. -/
theorem response {i u : Nat} {r : Ret Nat} (h : e i = some (.res u r)) : t i = u ∧ ∃ a p, (C i).pc u = .call a p := by
  have h1 : (Event.res u r : Event (Op Nat) (Ret Nat)).tid = t i := forever_event (example_plays R np nc k) hr.exec hr.start h
  have h1 : u = t i := h1
  refine ⟨h1.symm, ?_⟩
  have h2 := forever_trans hr.exec i
  rw [← h1] at h2
  generalize (C i).pc u = p at h2
  generalize (C (i + 1)).pc u = p' at h2
  generalize (C (i + 1)).s.1 = s' at h2
  generalize (C (i + 1)).s.2 = g' at h2
  generalize ch i = c at h2
  rw [h] at h2
  generalize he : some (Event.res u r) = ev at h2
  cases h2 with
  | push h => obtain ⟨_, _, rfl⟩ := (example_plays R np nc k).push _ _ _ _ _ _ h; cases he
  | pop h => obtain ⟨_, _, rfl⟩ := (example_plays R np nc k).pop _ _ _ _ _ h; cases he
  | inside h => exact ⟨_, _, rfl⟩
  | finish h => exact ⟨_, _, rfl⟩
  | _ => cases he

/-- No `push` is refused: the queue is not of fixed size, and calls are not bounded. -/
theorem accepts (hf : R.Faithful) (hn : n + 1 ≤ R.limit) (hfix : R.fixed = false) {i u : Nat} (h : e i = some (.res u (.pushed false))) : False := by
  obtain ⟨-, a, p, hp⟩ := hr.response h
  obtain ⟨-, j, o, hpend, hop⟩ := (hr.inv i).busy u a p hp
  have h1 := hpend.returned (.pushed false)
  obtain ⟨L, hl⟩ := queue_text_linearizable hf hn (example_exec (forever_runs hr.exec hr.start (i + 1)))
  simp only [firstEvents, h, Option.toList] at hl
  obtain ⟨o', hm⟩ := hl.complete _ _ _ h1
  obtain ⟨v, hv⟩ := hl.invoked _ hm
  have hlt := lt_of_getElem? hpend.1
  have h2 : o' = o := by
    simp only [getElem?_snoc, hlt, if_true] at hv
    rw [hpend.1] at hv
    cases hv
    rfl
  subst h2
  obtain ⟨σ, hrun⟩ := hl.legal
  obtain ⟨L₁, L₂, rfl⟩ := List.append_of_mem hm
  obtain ⟨σ₁, σ₂, -, h3, -⟩ := hrun.split
  cases a with
  | push i v =>
    obtain rfl : o' = .push false v := hop
    rcases h3 with ⟨h, _⟩ | ⟨_, h, _⟩
    · cases h
    · simp [hfix] at h
  | pop l =>
    obtain rfl : o' = .pop := hop
    exact h3
  | _ => exact hop

theorem within (i u : Nat) : Within k ((C i).pc u) := by
  induction i with
  | zero =>
    rw [hr.start]
    simp only [Example.initial]
    repeat' split
    all_goals simp [Within]
  | succ i ih =>
    by_cases hu : t i = u
    · have h2 := forever_trans hr.exec i
      rw [hu] at h2
      generalize (C i).pc u = p at h2 ih
      generalize (C (i + 1)).pc u = p' at h2
      generalize (C (i + 1)).s.1 = s' at h2
      generalize (C (i + 1)).s.2 = g' at h2
      generalize ch i = c at h2
      generalize e i = ev at h2
      cases h2 with
      | more h => simp only [Within] at ih ⊢; exact Nat.lt_of_le_of_ne ih h
      | @inside a p c s' p' ev h => cases a <;> exact ih
      | @finish a p c s' p' v r h =>
        generalize (exampleSetup R np nc k).result a r = b
        cases a with
        | push i v =>
          rcases b with _ | _ | _
          · trivial
          · exact ih
          · exact Nat.succ_le_of_lt ih
        | pop l => rcases b with _ | _ | _ <;> cases l <;> trivial
        | _ => cases b <;> trivial
      | _ => first | exact ih | trivial
    · rw [forever_other hr.exec hu]; exact ih

theorem pc_next (i : Nat) : (C (i + 1)).pc = upd (C i).pc (t i) ((C (i + 1)).pc (t i)) := by
  obtain ⟨p', -, h⟩ := hr.exec.step i
  rw [h, upd_self]

/-- How a sum over threads changes in a step. -/
theorem total_next (F : Example.PC (TPC (SSt R.K Nat) (Loc R.K Nat) (SChoice R.K (Op Nat) Nat) (Ret Nat)) → Nat) (i M : Nat) :
    (t i < M ∧ Example.total F (C (i + 1)).pc M + F ((C i).pc (t i)) = Example.total F (C i).pc M + F ((C (i + 1)).pc (t i))) ∨
      (M ≤ t i ∧ Example.total F (C (i + 1)).pc M = Example.total F (C i).pc M) := by
  have h := hr.pc_next i
  rcases Nat.lt_or_ge (t i) M with h1 | h1
  · refine .inl ⟨h1, ?_⟩
    have := Example.total_upd F (C i).pc ((C (i + 1)).pc (t i)) h1
    rwa [← h] at this
  · refine .inr ⟨h1, ?_⟩
    have := Example.total_upd_ge F (C i).pc ((C (i + 1)).pc (t i)) h1
    rwa [← h] at this

/-- Values offered, and returned calls that changed the queue, in terms of the loops of the threads. -/
theorem counts (hf : R.Faithful) (hn : n + 1 ≤ R.limit) (hfix : R.fixed = false) (i : Nat) :
    (offered (firstEvents e i)).length ≤ Example.total (begun k) (C i).pc np ∧
    (firstEvents e i).countP changed ≤ Example.total (progress k) (C i).pc np + ((C i).s.2.consumer_count + Example.total Example.owed (C i).pc (np + nc)) := by
  induction i with
  | zero => exact ⟨by simp [firstEvents, offered, invs], by simp [firstEvents]⟩
  | succ i ih =>
    obtain ⟨ih1, ih2⟩ := ih
    simp only [firstEvents]
    rw [offered_append, List.length_append, List.countP_append]
    have hB := hr.total_next (begun k) i np
    have hP := hr.total_next (progress k) i np
    have hO := hr.total_next Example.owed i (np + nc)
    have hrole := (hr.inv i).role (t i)
    have hacc : ∀ u, e i ≠ some (.res u (.pushed false)) := fun u h => hr.accepts hf hn hfix h
    have hcalm := hr.calm (i + 1) (t i)
    have hbusy := call_busy (example_plays R np nc k) (forever_runs hr.exec hr.start i) (t i)
    have h2 := forever_trans hr.exec i
    generalize (offered (firstEvents e i)).length = len at *
    generalize (firstEvents e i).countP changed = cnt at *
    generalize Example.total (begun k) (C (i + 1)).pc np = b' at *
    generalize Example.total (begun k) (C i).pc np = b at *
    generalize Example.total (progress k) (C (i + 1)).pc np = q' at *
    generalize Example.total (progress k) (C i).pc np = q at *
    generalize Example.total Example.owed (C (i + 1)).pc (np + nc) = o' at *
    generalize Example.total Example.owed (C i).pc (np + nc) = o at *
    generalize (C (i + 1)).s.1 = s' at h2
    generalize (C (i + 1)).s.2 = g' at *
    generalize (C (i + 1)).pc (t i) = p' at *
    generalize (C i).pc (t i) = p at *
    generalize (C i).s.2 = g at *
    generalize (C i).s.1 = s at h2
    generalize ch i = c at h2
    generalize e i = ev at *
    cases h2 with
    | exit h =>
      have h : _ = k := h
      simp [begun, progress, Example.owed, offered, invs] at *
      omega
    | push h =>
      obtain ⟨o, rfl, rfl⟩ := (example_reads R np nc k).pushes _ _ _ _ _ _ h
      simp [begun, progress, Example.owed, offered, invs, offeredBy, changed, Role, exampleSetup] at *
      omega
    | pop h =>
      obtain ⟨o, rfl, rfl⟩ := (example_reads R np nc k).pops _ _ _ _ _ h
      simp [begun, progress, Example.owed, offered, invs, offeredBy, changed, Role, exampleSetup] at *
      omega
    | @inside a p c s' p' ev h h3 =>
      rcases (example_plays R np nc k).step _ _ _ _ _ _ _ (hbusy _ _ rfl) h with ⟨rfl, -⟩ | ⟨r, rfl, -⟩
      · cases a <;> simp [begun, progress, Example.owed, offered, invs] at * <;> omega
      · exact absurd rfl (h3 _ _)
    | @finish a p c s' p' u r h =>
      cases a with
      | push j v =>
        cases r with
        | pushed ok =>
          cases ok with
          | false => exact absurd rfl (hacc u)
          | true =>
            simp [begun, progress, Example.owed, offered, invs, offeredBy, changed, Role, exampleSetup, Setup.result, pushAnswer, Example.after] at *
            omega
        | _ => simp [exampleSetup, Setup.result, pushAnswer, Example.after] at hcalm
      | pop l =>
        cases r with
        | popped v =>
          cases v with
          | none =>
            cases l <;> simp [begun, progress, Example.owed, offered, invs, offeredBy, changed, Role, exampleSetup, Setup.result, popAnswer, Example.after] at * <;> omega
          | some v =>
            simp [begun, progress, Example.owed, offered, invs, offeredBy, changed, Role, exampleSetup, Setup.main, Setup.result, popAnswer, Example.after] at *
            omega
        | _ => simp [exampleSetup, Setup.result, popAnswer, Example.after] at hcalm
      | _ => exact hrole.elim
    | _ =>
      simp [begun, progress, Example.owed, offered, invs, Role, exampleSetup] at *
      omega

/-- At most `2 * np * k` calls that changed the queue return. -/
theorem changes (hf : R.Faithful) (hn : n + 1 ≤ R.limit) (hfix : R.fixed = false) (i : Nat) : (firstEvents e i).countP changed ≤ 2 * (np * k) := by
  obtain ⟨h1, h2⟩ := hr.counts hf hn hfix i
  have hb : ∀ u, begun k ((C i).pc u) ≤ k := by
    intro u
    have := hr.within i u
    generalize (C i).pc u = p at this
    unfold begun
    split <;> simp only [Within] at this <;> omega
  have hp : ∀ u, progress k ((C i).pc u) ≤ k := by
    intro u
    have := hr.within i u
    generalize (C i).pc u = p at this
    unfold progress
    split <;> simp only [Within] at this <;> omega
  have h3 := total_le_mul hb (n := np)
  have h4 := total_le_mul hp (n := np)
  have h5 : (delivered (firstEvents e i)).length = (C i).s.2.consumer_count + Example.total Example.owed (C i).pc (np + nc) := by
    rw [← allPut_delivered]; exact (hr.inv i).got
  have h6 := (Linearizable.delivers_only_offered (queue_text_linearizable hf hn (example_exec (forever_runs hr.exec hr.start i)))).length_le
  omega

theorem plain_calls {i u : Nat} {o : Op Nat} (h : Event.inv u o ∈ firstEvents e i) : o.plain = true := by
  obtain ⟨j, hj⟩ := List.getElem?_of_mem h
  rcases (hr.inv i).ops j u o hj with ⟨-, v, rfl⟩ | ⟨-, -, rfl⟩ <;> rfl

/-- Every call comes to an end. -/
theorem call_ends (hf : R.Faithful) (hn : n + 1 ≤ R.limit) (hfix : R.fixed = false) {i u : Nat} {a p} (h : (C i).pc u = .call a p) :
    ∃ j, ∀ a' p', (C (i + j)).pc u ≠ .call a' p' := by
  apply Classical.byContradiction
  intro hno
  have hin : ∀ j, i ≤ j → ∃ a p, (C j).pc u = .call a p := by
    intro j hj
    apply Classical.byContradiction
    intro h'
    exact hno ⟨j - i, fun a' p' h => h' ⟨a', p', by rwa [show i + (j - i) = j by omega] at h⟩⟩
  have hu : u ≤ np + nc := by
    have := (hr.inv i).role u
    rw [h] at this
    cases a <;> simp [Role, Setup.main, exampleSetup] at this <;> omega
  have hgo : ∀ l, ∃ j, l ≤ j ∧ t j = u := by
    intro l
    obtain ⟨j, h1, h2⟩ := hr.sched u hu (max i l)
    refine ⟨j, by omega, h2.resolve_right fun h3 => h3 ?_⟩
    obtain ⟨a, p, hp⟩ := hin j (by omega)
    obtain ⟨c, ⟨s', p', ev⟩, -, h4⟩ := queue_text_enabled hf hn (example_exec (forever_runs hr.exec hr.start j)) (t := u)
      (by simp only [Mach.baseOf, hp, Mach.pcOf]; exact ((hr.inv j).busy u a p hp).1) (.inr (hr.room j))
    simp only [Mach.baseOf, hp, Mach.pcOf] at h4
    refine ⟨.inner c, ?_⟩
    rw [hp]
    cases ev with
    | none => exact ⟨_, by simp only [Example.mach, h4]; rfl⟩
    | some ev => cases ev <;> exact ⟨_, by simp only [Example.mach, h4]; rfl⟩
  have hcall : ∀ j, i ≤ j → ∀ ev, e j = some ev → callOf u ev = false := by
    intro j hj ev he
    obtain ⟨a, p, hp⟩ := hin j hj
    cases ev with
    | res => rfl
    | inv v o =>
      rcases forever_call (example_plays R np nc k) hr.exec hr.start hp with ⟨h1, -⟩ | ⟨-, r, h1, -⟩
      · rw [he] at h1
        simp only [callOf, beq_eq_false_iff_ne]
        rintro rfl
        simp [ofThread, Event.tid] at h1
      · rw [he] at h1; cases h1
  obtain ⟨N, hN⟩ := hr.spurious
  obtain ⟨m, -, hm⟩ := callSteps_unbounded hin hgo (62 * (17 * i + 6 * N + 39 * (2 * (np * k) + (np + nc + 1))) + N + 1)
  obtain ⟨k', f, h1, h2, h3, -⟩ := forever_own (spur := casFails) (example_plays R np nc k) hr.exec hr.start ⟨rfl, rfl, rfl, rfl⟩
    (by
      intro c hc
      refine ⟨fun v hv => ?_, fun hv => ?_⟩ <;> subst hv <;> cases hc) hN u m
  have h4 := queue_text_delay hf hn h1 fun v o hm => hr.plain_calls hm
  have h5 := countP_bound hcall m
  have h6 := hr.changes hf hn hfix m
  have h7 : (exampleSetup R np nc k).main = np + nc := rfl
  rw [h7] at h4
  omega

end QueueRun

/-- **C77 (queue.cpp ends).** There is no execution without end of queue.cpp in which the scheduler is fair, stores to `done` become visible, no exception is
thrown, the allocator has memory, and compare-exchanges fail spuriously only finitely often. -/
theorem queue_example_ends (hf : R.Faithful) (hn : n + 1 ≤ R.limit) (hfix : R.fixed = false) : ¬ QueueRun R n np nc k C t ch e := by
  intro hr
  refine hr.toFairRun.ends ⟨example_plays R np nc k, fun i => (hr.inv i).role, ⟨rfl, rfl, rfl, rfl⟩, fun _ _ _ => ⟨_, rfl⟩, fun _ _ => ⟨_, rfl⟩,
    fun i u a p h => hr.call_ends hf hn hfix h, ?_, ?_⟩
  · intro i u r h h1
    cases r with
    | pushed ok =>
      cases h1
      exact hr.accepts hf hn hfix h
    | _ => cases h1
  · obtain ⟨N, hN⟩ := eventually_none fun i => hr.changes hf hn hfix i
    refine ⟨N, fun i hi u r h h1 => ?_⟩
    have h2 := hN i hi _ h
    cases r with
    | popped v => cases v <;> simp [exampleSetup, popAnswer, changed] at h1 h2
    | _ => cases h1

end
end Verif.Queue.Code
