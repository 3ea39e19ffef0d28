import Verif.ExampleForever
import Verif.ExampleStuck

/-!
# The example programs end

Nothing further of the code is modelled here. Executions without end of the programs of Example.lean, on a fair scheduler: if calls return, no `push` is refused,
and only finitely many calls of `pop` find an element, there are none.
-/

namespace Verif.Example
open Lin

variable {S P Ch O R : Type}

section
variable (m : Mach S P Ch O R) (x : Setup Ch R) (ok : S → P → Ch → Prop) (s₀ : S) (C : Nat → MConf (S × Vars) (PC P)) (t : Nat → Nat)
  (ch : Nat → Choice Ch) (e : Nat → Option (Event O R))

/-- An execution without end in which no exception is thrown, on a fair scheduler. -/
structure ScheduledRun : Prop where
  exec : Forever (mach m x) (okBy m x ok) (x.main + 1) C t ch e
  start : C 0 = initial x s₀
  /-- a thread that makes no step any more is unable to make one again and again -/
  sched : ∀ u ≤ x.main, ∀ n, ∃ j, n ≤ j ∧ (t j = u ∨ ¬ (mach m x).CanStep (C j) u)
  /-- no exception leaves a thread function -/
  calm : ∀ n u, (C n).pc u ≠ .at .terminated

/-- The same on a memory in which stores to `done` become visible. -/
structure FairRun : Prop extends ScheduledRun m x ok s₀ C t ch e where
  /-- once `done` is set, loads of `done` return `false` only for some time -/
  flag : ∀ n, (C n).s.2.done = true → ∃ j, ∀ i, j ≤ i → ch i ≠ .stale

end

variable {m : Mach S P Ch O R} {x : Setup Ch R} {ok : S → P → Ch → Prop} {s₀ : S} {C : Nat → MConf (S × Vars) (PC P)}
  {t : Nat → Nat} {ch : Nat → Choice Ch} {e : Nat → Option (Event O R)}

theorem after_ne (a : At) (b : Option Bool) : after a b ≠ .ended ∧ after a b ≠ .joinConsumers ∧ after a b ≠ .print := by
  cases a <;> cases b <;> simp [after] <;> (repeat' split) <;> simp

theorem Runs.done_set {h : History O R} {D : MConf (S × Vars) (PC P)} (hx : Runs m x ok s₀ h D) (u : Nat) :
    D.pc u = .at .joinConsumers ∨ D.pc u = .at .print → D.s.2.done = true := by
  induction hx with
  | refl =>
    intro h
    simp only [initial, PC.at.injEq] at h
    split at h
    · simp at h
    · split at h
      · simp at h
      · split at h <;> simp at h
  | @step h C t ch σ' p' e hx hs hok ih =>
    have hs' := trans_of_step hs
    obtain ⟨s₂, g₂⟩ := σ'
    simp only at hs'
    intro hu
    by_cases hut : u = t
    · subst hut
      simp only [upd_self] at hu
      generalize hp : C.pc u = p at hs'
      cases hs' with
      | finish => simp [after_ne] at hu
      | publish => rfl
      | joined => exact ih (.inl hp)
      | _ => simp at hu
    · simp only [upd_ne _ _ _ hut] at hu
      have := ih hu
      generalize C.pc t = p at hs'
      cases hs' <;> simp [this]

/-- Something that holds for each of finitely many threads from some time on holds for all of them from some time on. -/
theorem eventually_all {Q : Nat → Nat → Prop} : ∀ {M : Nat}, (∀ u < M, ∃ N, ∀ n, N ≤ n → Q n u) → ∃ N, ∀ u < M, ∀ n, N ≤ n → Q n u
  | 0, _ => ⟨0, fun u h => absurd h (by omega)⟩
  | M + 1, h => by
    obtain ⟨N, h1⟩ := eventually_all (M := M) fun u hu => h u (by omega)
    obtain ⟨N', h2⟩ := h M (by omega)
    refine ⟨max N N', fun u hu n hn => ?_⟩
    by_cases hM : u = M
    · subst hM; exact h2 n (by omega)
    · exact h1 u (by omega) n (by omega)

/-- A call that comes to an end returns. -/
theorem forever_returns {T : Nat} (hpl : Plays m x ok) (hx : Forever (mach m x) (okBy m x ok) T C t ch e) (h0 : C 0 = initial x s₀) {u : Nat} {a} :
    ∀ {j n : Nat} {p}, (C n).pc u = .call a p → (∀ a' p', (C (n + j)).pc u ≠ .call a' p') →
      ∃ i r, n ≤ i ∧ e i = some (.res u r) ∧ (C (i + 1)).pc u = .at (after a (x.result a r))
  | 0, n, p, h, hj => absurd h (hj _ _)
  | j + 1, n, p, h, hj => by
    rcases forever_call hpl hx h0 h with ⟨-, p', h1⟩ | ⟨-, r, h1, h2⟩
    · obtain ⟨i, r, h2, h3⟩ := forever_returns hpl hx h0 (j := j) h1 (by rw [show n + 1 + j = n + (j + 1) by omega]; exact hj)
      exact ⟨i, r, by omega, h3⟩
    · exact ⟨n, r, Nat.le_refl _, h1, h2⟩

namespace FairRun

section
variable (hr : FairRun m x ok s₀ C t ch e)
include hr

/-- A thread at a place where it can go on, goes on. -/
theorem acts {u n : Nat} {a : At} (hu : u ≤ x.main) (h : (C n).pc u = .at a) (ha : ∀ j, n ≤ j → (C j).pc u = .at a → ∃ ch y, (mach m x).step u (C j).s ((C j).pc u) ch = some y) :
    ∃ j, n ≤ j ∧ t j = u ∧ (C j).pc u = .at a := by
  have hok : ∀ σ p c, okBy m x (fun _ _ _ => True) σ p c := by
    intro σ p c
    unfold okBy
    split <;> trivial
  obtain ⟨j, h1, h2, -⟩ := forever_acts (ok := fun _ _ _ => True) ⟨hr.exec.thread, fun n => hok _ _ _, hr.exec.step⟩
    (fun n => by
      obtain ⟨j, h1, h2⟩ := hr.sched u hu n
      exact ⟨j, h1, h2.imp id fun h ⟨c, y, _, h3⟩ => h ⟨c, y, h3⟩⟩) (n := n)
    fun j hj => by
      obtain ⟨c, y, h1⟩ := ha (n + j) (by omega) (by rw [hj, h])
      exact ⟨c, y, hok _ _ _, h1⟩
  exact ⟨n + j, by omega, h1, by rw [h2, h]⟩

theorem trans {u j : Nat} {p : PC P} (h : t j = u) (hp : (C j).pc u = p) :
    ∃ c s' g' p' ev, (C (j + 1)).pc u = p' ∧ Trans m x u (C j).s.1 (C j).s.2 p c s' g' p' ev := by
  have := forever_trans hr.exec j
  rw [h, hp] at this
  exact ⟨_, _, _, _, _, rfl, this⟩

theorem ended_stays {u n : Nat} (h : (C n).pc u = .at .ended) : ∀ j, n ≤ j → (C j).pc u = .at .ended := by
  intro j hj
  obtain ⟨d, rfl⟩ := Nat.exists_eq_add_of_le hj
  clear hj
  induction d with
  | zero => exact h
  | succ d ih =>
    by_cases hu : t (n + d) = u
    · obtain ⟨_, _, _, _, _, -, this⟩ := hr.trans hu ih
      cases this
    · rw [← Nat.add_assoc, forever_other hr.exec hu]; exact ih

theorem done_stays {n : Nat} (h : (C n).s.2.done = true) : ∀ j, n ≤ j → (C j).s.2.done = true := by
  intro j hj
  obtain ⟨d, rfl⟩ := Nat.exists_eq_add_of_le hj
  clear hj
  induction d with
  | zero => exact h
  | succ d ih =>
    have h1 := forever_trans hr.exec (n + d)
    rw [← Nat.add_assoc]
    generalize (C (n + d + 1)).s.1 = s' at h1
    generalize (C (n + d + 1)).s.2 = g' at h1 ⊢
    generalize (C (n + d + 1)).pc (t (n + d)) = p' at h1
    generalize (C (n + d)).pc (t (n + d)) = p at h1
    generalize ch (n + d) = c at h1
    generalize e (n + d) = ev at h1
    cases h1 <;> simp [ih]

end

/-- What is needed of the container. -/
structure Serves (m : Mach S P Ch O R) (x : Setup Ch R) (ok : S → P → Ch → Prop) (C : Nat → MConf (S × Vars) (PC P)) (e : Nat → Option (Event O R)) : Prop where
  plays : Plays m x ok
  role : ∀ n u, Role x u ((C n).pc u)
  syncs : x.exit = [] ∧ x.join = [] ∧ x.publish = [] ∧ x.see = []
  /-- calls can begin -/
  push : ∀ n u v, ∃ y, m.step u (C n).s.1 m.idle (x.push v) = some y
  pop : ∀ n u, ∃ y, m.step u (C n).s.1 m.idle x.pop = some y
  /-- and come to an end -/
  returns : ∀ n u a p, (C n).pc u = .call a p → ∃ j, ∀ a' p', (C (n + j)).pc u ≠ .call a' p'
  /-- no `push` is refused -/
  accepts : ∀ n u r, e n = some (.res u r) → x.pushed r ≠ some false
  /-- only finitely many calls of `pop` find an element -/
  dry : ∃ N, ∀ n, N ≤ n → ∀ u r, e n = some (.res u r) → x.popped r ≠ some true

section
variable (hr : FairRun m x ok s₀ C t ch e) (hs : Serves m x ok C e)
include hr hs

theorem returned {u n : Nat} {a p} (h : (C n).pc u = .call a p) :
    ∃ i r, n ≤ i ∧ e i = some (.res u r) ∧ (C (i + 1)).pc u = .at (after a (x.result a r)) := by
  obtain ⟨j, hj⟩ := hs.returns n u a p h
  exact forever_returns hs.plays hr.exec hr.start h hj

theorem push_ends {u n i v : Nat} {p} (h : (C n).pc u = .call (.push i v) p) : ∃ j, n ≤ j ∧ (C j).pc u = .at (.forTest (i + 1)) := by
  obtain ⟨j, r, h1, h2, h3⟩ := hr.returned hs h
  refine ⟨j + 1, by omega, ?_⟩
  have h4 := hs.accepts j u r h2
  have h5 := hr.calm (j + 1) u
  rw [h3] at h5 ⊢
  simp only [Setup.result] at h5 ⊢
  cases hp : x.pushed r with
  | none => simp [hp, after] at h5
  | some b =>
    cases b with
    | false => exact absurd hp h4
    | true => rfl

theorem pop_ends {N : Nat} (hN : ∀ n, N ≤ n → ∀ u r, e n = some (.res u r) → x.popped r ≠ some true) {u n : Nat} {l : Bool} {p} (hn : N ≤ n)
    (h : (C n).pc u = .call (.pop l) p) : ∃ j, n ≤ j ∧ (C j).pc u = .at (if l then .leave else .test) := by
  obtain ⟨j, r, h1, h2, h3⟩ := hr.returned hs h
  refine ⟨j + 1, by omega, ?_⟩
  have h4 := hN j (by omega) u r h2
  have h5 := hr.calm (j + 1) u
  rw [h3] at h5 ⊢
  simp only [Setup.result] at h5 ⊢
  cases hp : x.popped r with
  | none => simp [hp, after] at h5
  | some b =>
    cases b with
    | true => exact absurd hp h4
    | false => rfl

/-! ### Producers -/

theorem for_goes {u n i : Nat} (hu : u ≤ x.main) (h : (C n).pc u = .at (.forTest i)) :
    ∃ j, n ≤ j ∧ (C j).pc u = if i = x.iterations then .at .ended else .at (.count i) := by
  obtain ⟨j, h1, h2, h3⟩ := hr.acts hu h fun j _ hp => by
    refine ⟨.go, ?_⟩
    rw [hp]
    by_cases hi : i = x.iterations
    · exact ⟨_, by simp only [mach, hi, if_true, hs.syncs.1, quiet, Option.map_some]; rfl⟩
    · exact ⟨_, by simp only [mach, hi, if_false]; rfl⟩
  refine ⟨j + 1, by omega, ?_⟩
  obtain ⟨_, _, _, _, _, hq, h4⟩ := hr.trans h2 h3
  rw [hq]
  cases h4 with
  | exit hi => simp [hi]
  | more hi => simp [hi]

theorem count_goes {u n i : Nat} (hu : u ≤ x.main) (h : (C n).pc u = .at (.count i)) : ∃ j v, n ≤ j ∧ (C j).pc u = .at (.push i v) := by
  obtain ⟨j, h1, h2, h3⟩ := hr.acts hu h fun j _ hp => ⟨.go, _, by rw [hp]; rfl⟩
  refine ⟨j + 1, ?_⟩
  obtain ⟨_, _, _, _, _, hq, h4⟩ := hr.trans h2 h3
  rw [hq]
  cases h4
  exact ⟨_, by omega, rfl⟩

theorem push_goes {u n i v : Nat} (hu : u ≤ x.main) (h : (C n).pc u = .at (.push i v)) : ∃ j p, n ≤ j ∧ (C j).pc u = .call (.push i v) p := by
  obtain ⟨j, h1, h2, h3⟩ := hr.acts hu h fun j _ hp => by
    obtain ⟨y, h2⟩ := hs.push j u v
    exact ⟨.go, _, by rw [hp]; simp only [mach, h2]; rfl⟩
  refine ⟨j + 1, ?_⟩
  obtain ⟨_, _, _, _, _, hq, h4⟩ := hr.trans h2 h3
  rw [hq]
  cases h4
  exact ⟨_, by omega, rfl⟩

theorem producer_ends {u : Nat} (hu : u ≤ x.main) : ∀ {d i n : Nat}, i + d = x.iterations → (C n).pc u = .at (.forTest i) → ∃ j, (C j).pc u = .at .ended
  | 0, i, n, hi, h => by
    obtain ⟨j, -, h1⟩ := hr.for_goes hs hu h
    rw [if_pos (by omega)] at h1
    exact ⟨j, h1⟩
  | d + 1, i, n, hi, h => by
    obtain ⟨j, -, h1⟩ := hr.for_goes hs hu h
    rw [if_neg (by omega)] at h1
    obtain ⟨j, v, -, h1⟩ := hr.count_goes hs hu h1
    obtain ⟨j, p, -, h1⟩ := hr.push_goes hs hu h1
    obtain ⟨j, -, h1⟩ := hr.push_ends hs h1
    exact producer_ends hu (d := d) (by omega) h1

theorem producers_end : ∃ N, ∀ u < x.producers, ∀ n, N ≤ n → (C n).pc u = .at .ended := by
  apply eventually_all
  intro u hu
  obtain ⟨j, hj⟩ := hr.producer_ends hs (u := u) (by simp only [Setup.main]; omega) (i := 0) (n := 0) (d := x.iterations) (by omega)
    (by rw [hr.start]; simp [initial, hu])
  exact ⟨j, hr.ended_stays hj⟩

/-! ### main -/

theorem done_set : ∃ n, (C n).s.2.done = true ∧ ((C n).pc x.main = .at .joinConsumers ∨ (C n).pc x.main = .at .print) := by
  have hset : ∀ n, (C n).pc x.main = .at .setDone → ∃ j, (C j).pc x.main = .at .joinConsumers := by
    intro n h
    obtain ⟨j, h1, h2, h3⟩ := hr.acts (Nat.le_refl _) h fun j _ hp => by
      refine ⟨.go, _, by rw [hp]; simp only [mach, hs.syncs.2.2.1, quiet, Option.map_some]; rfl⟩
    refine ⟨j + 1, ?_⟩
    obtain ⟨_, _, _, _, _, hq, h4⟩ := hr.trans h2 h3
    rw [hq]
    cases h4
    rfl
  obtain ⟨N, hN⟩ := hr.producers_end hs
  have hj : ∃ n, (C n).pc x.main = .at .joinConsumers ∨ (C n).pc x.main = .at .print := by
    have h1 := hs.role N x.main
    have hm : ¬ x.main < x.producers := Nat.not_lt.2 (Nat.le_add_right _ _)
    cases hp : (C N).pc x.main with
    | call a p => rw [hp] at h1; cases a <;> simp [Role, hm] at h1
    | «at» a =>
      rw [hp] at h1
      cases a with
      | joinProducers =>
        obtain ⟨j, h2, h3, h4⟩ := hr.acts (Nat.le_refl _) hp fun j hj hp => by
          have h2 : ∀ u < x.producers, (C j).s.2.ended u = true := fun u hu => (forever_runs hr.exec hr.start j).ended u (hN u hu j hj)
          refine ⟨.go, _, by
            rw [hp]; simp only [mach]
            rw [if_pos (by simpa using h2), hs.syncs.2.1]; rfl⟩
        obtain ⟨_, _, _, _, _, hq, h5⟩ := hr.trans h3 h4
        have h6 : (C (j + 1)).pc x.main = .at .setDone := by
          rw [hq]
          cases h5
          rfl
        obtain ⟨i, hi⟩ := hset _ h6
        exact ⟨i, .inl hi⟩
      | setDone => obtain ⟨i, hi⟩ := hset _ hp; exact ⟨i, .inl hi⟩
      | joinConsumers => exact ⟨N, .inl hp⟩
      | print => exact ⟨N, .inr hp⟩
      | _ => simp [Role, hm] at h1
  obtain ⟨n, hn⟩ := hj
  exact ⟨n, (forever_runs hr.exec hr.start n).done_set _ hn, hn⟩

/-! ### Consumers -/

theorem leave_goes {u n : Nat} (hu : u ≤ x.main) (h : (C n).pc u = .at .leave) : ∃ j, (C j).pc u = .at .ended := by
  obtain ⟨j, h1, h2, h3⟩ := hr.acts hu h fun j _ hp => ⟨.go, _, by rw [hp]; rfl⟩
  refine ⟨j + 1, ?_⟩
  obtain ⟨_, _, _, _, _, hq, h4⟩ := hr.trans h2 h3
  rw [hq]
  cases h4
  rfl

theorem pop_goes {u n : Nat} {l : Bool} (hu : u ≤ x.main) (h : (C n).pc u = .at (.pop l)) : ∃ j p, n ≤ j ∧ (C j).pc u = .call (.pop l) p := by
  obtain ⟨j, h1, h2, h3⟩ := hr.acts hu h fun j _ hp => by
    obtain ⟨y, h2⟩ := hs.pop j u
    exact ⟨.go, _, by rw [hp]; simp only [mach, h2]; rfl⟩
  refine ⟨j + 1, ?_⟩
  obtain ⟨_, _, _, _, _, hq, h4⟩ := hr.trans h2 h3
  rw [hq]
  cases h4
  exact ⟨_, by omega, rfl⟩

theorem counted_goes {u n : Nat} {l : Bool} (hu : u ≤ x.main) (h : (C n).pc u = .at (.counted l)) : ∃ j, n ≤ j ∧ (C j).pc u = .at (.pop l) := by
  obtain ⟨j, h1, h2, h3⟩ := hr.acts hu h fun j _ hp => ⟨.go, _, by rw [hp]; rfl⟩
  refine ⟨j + 1, by omega, ?_⟩
  obtain ⟨_, _, _, _, _, hq, h4⟩ := hr.trans h2 h3
  rw [hq]
  cases h4
  rfl

theorem test_goes {N : Nat} (hd : ∀ j, N ≤ j → (C j).s.2.done = true) (hst : ∀ j, N ≤ j → ch j ≠ .stale) {u n : Nat} (hu : u ≤ x.main) (hn : N ≤ n)
    (h : (C n).pc u = .at .test) : ∃ j, n ≤ j ∧ (C j).pc u = .at (.pop true) := by
  obtain ⟨j, h1, h2, h3⟩ := hr.acts hu h fun j _ hp => ⟨.stale, _, by rw [hp]; rfl⟩
  refine ⟨j + 1, by omega, ?_⟩
  obtain ⟨p', h4, h5⟩ := hr.exec.step j
  rw [h5, h2, upd_self]
  rw [h2, h3] at h4
  have h6 := hst j (by omega)
  cases hc : ch j with
  | stale => exact absurd hc h6
  | inner c => rw [hc] at h4; simp [mach] at h4
  | go =>
    rw [hc] at h4
    simp only [mach, hd j (by omega), if_true, Option.map_eq_some_iff] at h4
    obtain ⟨s', -, h4⟩ := h4
    simp only [Prod.mk.injEq] at h4
    exact h4.2.1.symm

theorem consumers_end : ∃ N, ∀ u < x.main, ∀ n, N ≤ n → (C n).pc u = .at .ended := by
  obtain ⟨n₁, h1, -⟩ := hr.done_set hs
  obtain ⟨n₂, h2⟩ := hr.flag _ h1
  obtain ⟨n₃, h3⟩ := hs.dry
  obtain ⟨n₄, h4⟩ := hr.producers_end hs
  have hd : ∀ j, max n₁ (max n₂ n₃) ≤ j → (C j).s.2.done = true := fun j hj => hr.done_stays h1 j (by omega)
  have hst : ∀ j, max n₁ (max n₂ n₃) ≤ j → ch j ≠ .stale := fun j hj => h2 j (by omega)
  have hdry : ∀ n, max n₁ (max n₂ n₃) ≤ n → ∀ u r, e n = some (.res u r) → x.popped r ≠ some true := fun n hn => h3 n (by omega)
  generalize max n₁ (max n₂ n₃) = N at hd hst hdry
  apply eventually_all
  intro u hu
  have hu' := Nat.le_of_lt hu
  suffices h : ∃ j, (C j).pc u = .at .ended by
    obtain ⟨j, hj⟩ := h
    exact ⟨j, hr.ended_stays hj⟩
  have callT : ∀ n p, N ≤ n → (C n).pc u = .call (.pop true) p → ∃ j, (C j).pc u = .at .ended := by
    intro n p hn h
    obtain ⟨j, -, h1⟩ := hr.pop_ends hs hdry hn h
    exact hr.leave_goes hs hu' h1
  have popT : ∀ n, N ≤ n → (C n).pc u = .at (.pop true) → ∃ j, (C j).pc u = .at .ended := by
    intro n hn h
    obtain ⟨j, p, h1, h2⟩ := hr.pop_goes hs hu' h
    exact callT j p (by omega) h2
  have test : ∀ n, N ≤ n → (C n).pc u = .at .test → ∃ j, (C j).pc u = .at .ended := by
    intro n hn h
    obtain ⟨j, h1, h2⟩ := hr.test_goes hs hd hst hu' hn h
    exact popT j (by omega) h2
  have call : ∀ n l p, N ≤ n → (C n).pc u = .call (.pop l) p → ∃ j, (C j).pc u = .at .ended := by
    intro n l p hn h
    cases l with
    | true => exact callT n p hn h
    | false =>
      obtain ⟨j, h1, h2⟩ := hr.pop_ends hs hdry hn h
      exact test j (by omega) h2
  have pop : ∀ n l, N ≤ n → (C n).pc u = .at (.pop l) → ∃ j, (C j).pc u = .at .ended := by
    intro n l hn h
    obtain ⟨j, p, h1, h2⟩ := hr.pop_goes hs hu' h
    exact call j l p (by omega) h2
  by_cases hup : u < x.producers
  · exact ⟨n₄, h4 u hup n₄ (Nat.le_refl _)⟩
  have hrole := hs.role N u
  cases hp : (C N).pc u with
  | call a p =>
    rw [hp] at hrole
    cases a with
    | pop l => exact call N l p (Nat.le_refl _) hp
    | _ => simp [Role, hup] at hrole
  | «at» a =>
    rw [hp] at hrole
    cases a with
    | test => exact test N (Nat.le_refl _) hp
    | pop l => exact pop N l (Nat.le_refl _) hp
    | counted l =>
      obtain ⟨j, h1, h2⟩ := hr.counted_goes hs hu' hp
      exact pop j l h1 h2
    | leave => exact hr.leave_goes hs hu' hp
    | ended => exact ⟨N, hp⟩
    | terminated => exact absurd hp (hr.calm _ _)
    | _ => simp only [Role] at hrole; omega

/-- There is no such execution. -/
theorem ends : False := by
  obtain ⟨N, hN⟩ := hr.consumers_end hs
  obtain ⟨n, h1, h2⟩ := hr.done_set hs
  -- `main` prints
  have hprint : ∃ k, N ≤ k ∧ (C k).pc x.main = .at .print := by
    have hstay : ∀ d, (C (n + d)).pc x.main = .at .joinConsumers ∨ (C (n + d)).pc x.main = .at .print := by
      intro d
      induction d with
      | zero => exact h2
      | succ d ih =>
        by_cases hu : t (n + d) = x.main
        · rcases ih with h | h
          · obtain ⟨_, _, _, _, _, hq, h3⟩ := hr.trans hu h
            rw [← Nat.add_assoc]
            rw [hq]
            cases h3
            exact .inr rfl
          · obtain ⟨_, _, _, _, _, hq, h3⟩ := hr.trans hu h
            cases h3
        · rw [← Nat.add_assoc, forever_other hr.exec hu]; exact ih
    rcases hstay N with h | h
    · obtain ⟨j, h3, h4, h5⟩ := hr.acts (Nat.le_refl _) h fun j hj hp => by
        have h2 : ∀ u < x.consumers, (C j).s.2.ended (x.producers + u) = true := fun u hu =>
          (forever_runs hr.exec hr.start j).ended _ (hN _ (by simp only [Setup.main]; omega) j (by omega))
        refine ⟨.go, _, by
          rw [hp]; simp only [mach]
          rw [if_pos (by simpa using h2)]⟩
      obtain ⟨_, _, _, _, _, hq, h6⟩ := hr.trans h4 h5
      refine ⟨j + 1, by omega, ?_⟩
      rw [hq]
      cases h6
      rfl
    · exact ⟨n + N, by omega, h⟩
  obtain ⟨k, hk, h3⟩ := hprint
  have h4 := hr.exec.thread k
  by_cases hu : t k = x.main
  · obtain ⟨_, _, _, _, _, -, this⟩ := hr.trans hu h3
    cases this
  · obtain ⟨_, _, _, _, _, -, this⟩ := hr.trans rfl (hN (t k) (by omega) k hk)
    cases this

end
end FairRun

/-- The number of calls of `push` a producer has begun. -/
def begun {P : Type} (k : Nat) : PC P → Nat
  | .at (.forTest i) | .at (.count i) | .at (.push i _) => i
  | .call (.push i _) _ => i + 1
  | .at .ended => k
  | _ => 0

/-- The loop counter of a producer is in its range. -/
def Within {P : Type} (k : Nat) : PC P → Prop
  | .at (.forTest i) => i ≤ k
  | .at (.count i) | .at (.push i _) | .call (.push i _) _ => i < k
  | _ => True

theorem total_le_mul {A : Type} {F : A → Nat} {f : Nat → A} {n k : Nat} (h : ∀ u, F (f u) ≤ k) : total F f n ≤ n * k := by
  induction n with
  | zero => simp [total]
  | succ n ih =>
    simp only [total] at ih ⊢
    rw [List.range_succ]
    have := h n
    simp [Nat.succ_mul]
    omega

end Verif.Example
