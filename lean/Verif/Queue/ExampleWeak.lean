import Verif.ExampleWeak
import Verif.Queue.Example
import Verif.Queue.WeakTextProps

/-!
# examples/queue.cpp on the program text of the queue under the release/acquire memory model (C64)

A producer releases its view when it ends; `main` acquires the views of the producers when it joins them (queue.cpp:61), and releases its own by storing `true` to
`done` (:62); a consumer that loads `true` (:36) acquires it. A load of `done` may return `false` at any time, and nothing else orders the calls of different threads.
-/

namespace Verif.Queue.Code
open Lin Text Example

section
variable {α L : Type} {R : Rep} {rel : Bool} {P : Program (SSt R.K α) L (SChoice R.K (Op α) α) (Op α) (Ret α)}

/-- A step of a call. -/
theorem ra_inside {t : Nat} {w w' : RaSt R α} {p p' ch e} (hp : p ≠ .idle) (h : (raMach rel P).step t w p ch = some (w', p', e)) :
    w'.posts = w.posts ∧ ((e = none ∧ p' ≠ .idle) ∨ ∃ r, e = some (.res t r) ∧ p' = .idle) := by
  simp only [raMach] at h
  split at h
  · exact absurd rfl hp
  · exact absurd rfl hp
  · exact absurd rfl hp
  · cases h; exact ⟨rfl, .inl ⟨rfl, by simp⟩⟩
  · simp only [Option.map_eq_some_iff] at h
    obtain ⟨y, _, h⟩ := h
    cases h
    exact ⟨rfl, .inl ⟨rfl, by simp⟩⟩
  · simp only [Option.map_eq_some_iff] at h
    obtain ⟨y, h1, h⟩ := h
    cases h
    refine ⟨(raAccess_view h1).2.2, .inl ⟨rfl, ?_⟩⟩
    unfold after
    split <;> simp
  · cases h; exact ⟨rfl, .inr ⟨_, rfl, rfl⟩⟩
  · cases h

/-- A call. -/
theorem ra_call {t : Nat} {w w' : RaSt R α} {o p' e} (h : (raMach rel P).step t w (raMach rel P).idle (.call o) = some (w', p', e)) :
    w'.posts = w.posts ∧ p' ≠ .idle ∧ ∃ v, e = some (.inv t (o, v)) := by
  simp only [raMach, Option.map_eq_some_iff] at h
  obtain ⟨y, _, h⟩ := h
  cases h
  exact ⟨rfl, by simp, _, rfl⟩

theorem ra_post {t : Nat} {w w' : RaSt R α} {p' e} (h : (raMach rel P).step t w (raMach rel P).idle .post = some (w', p', e)) :
    w'.posts = w.posts ++ [w'.view t] ∧ e = none ∧ p' = .idle := by
  simp only [raMach] at h
  cases h
  exact ⟨by simp, rfl, rfl⟩

theorem ra_wait {t k : Nat} {w w' : RaSt R α} {p' e} (h : (raMach rel P).step t w (raMach rel P).idle (.wait k) = some (w', p', e)) :
    w'.posts = w.posts ∧ (∃ v, w.posts[k]? = some v ∧ v.Le (w'.view t)) ∧ e = none ∧ p' = .idle := by
  simp only [raMach, Option.map_eq_some_iff] at h
  obtain ⟨v, h1, h⟩ := h
  cases h
  exact ⟨rfl, ⟨v, h1, by simpa using (View.le_join_right _ _).trans (View.le_tick _ _)⟩, rfl, rfl⟩

end

variable {R : Rep}

/-- How queue.cpp uses the queue: `queue.push( value )` (:27), `queue.pop( value )` (:37, :41); how its threads synchronise. -/
def raExampleSetup (R : Rep) (producers consumers iterations : Nat) : Setup (RaChoice R (SChoice R.K (Op Nat) Nat) (Op Nat)) (Ret Nat × View Queue.Loc) where
  producers := producers
  consumers := consumers
  iterations := iterations
  push v := .call (.push false v)
  pop := .call .pop
  pushed r := pushAnswer r.1
  popped r := popAnswer r.1
  exit := [.post]
  join := (List.range producers).map .wait
  publish := [.post]
  see := [.wait producers]

abbrev RaExampleConf (R : Rep) := MConf (RaSt R Nat × Vars) (Example.PC (TPC (SSt R.K Nat) (Loc R.K Nat) (SChoice R.K (Op Nat) Nat) (Ret Nat)))

/-- Executions of queue.cpp under the release/acquire memory model, with a queue constructed for `n` elements (:17: `n = 128`). -/
abbrev RaExampleRuns (R : Rep) (n producers consumers iterations : Nat) (h : History (Op Nat × View Queue.Loc) (Ret Nat × View Queue.Loc)) (C : RaExampleConf R) : Prop :=
  Runs (raMach true (program R Nat)) (raExampleSetup R producers consumers iterations) raOk (RaConf.initial R Nat n).s h C

variable {n np nc k : Nat} {h : History (Op Nat × View Queue.Loc) (Ret Nat × View Queue.Loc)} {C : RaExampleConf R}

theorem ra_example_syncs {ch} (h : ch ∈ (raExampleSetup R np nc k).syncs) : ch = .post ∨ ∃ i, ch = .wait i := by
  simp only [Setup.syncs, raExampleSetup, List.mem_append, List.mem_singleton, List.mem_map] at h
  rcases h with ((h | ⟨i, _, h⟩) | h) | h
  · exact .inl h
  · exact .inr ⟨i, h.symm⟩
  · exact .inl h
  · exact .inr ⟨_, h⟩

theorem ra_example_plays (R : Rep) (np nc k : Nat) : Plays (raMach true (program R Nat)) (raExampleSetup R np nc k) raOk where
  push t s v s' p' e h := by
    obtain ⟨-, h1, v, h2⟩ := ra_call h
    exact ⟨h1, _, h2⟩
  pop t s s' p' e h := by
    obtain ⟨-, h1, v, h2⟩ := ra_call h
    exact ⟨h1, _, h2⟩
  step t s p ch s' p' e hp h := (ra_inside hp h).2
  sync ch hch t s s' p' e h := by
    rcases ra_example_syncs hch with rfl | ⟨i, rfl⟩
    · exact (ra_post h).2
    · exact (ra_wait h).2.2
  allowed ch hch s := by
    rcases ra_example_syncs hch with rfl | ⟨i, rfl⟩ <;> trivial

theorem ra_example_reads (R : Rep) (np nc k : Nat) :
    Reads (raMach true (program R Nat)) (raExampleSetup R np nc k) Prod.fst Prod.fst (fun v => .push false v) .pop pushAnswer popAnswer
      (fun o r => (pushedBy o r).toList) (fun o r => (handedBy o r).toList) where
  pushes t s v s' p' e h := by
    obtain ⟨-, -, v, h⟩ := ra_call h
    exact ⟨_, h, rfl⟩
  pops t s s' p' e h := by
    obtain ⟨-, -, v, h⟩ := ra_call h
    exact ⟨_, h, rfl⟩
  pushed _ := rfl
  popped _ := rfl
  put_push := (example_reads R np nc k).put_push
  put_pop := (example_reads R np nc k).put_pop
  get_push := (example_reads R np nc k).get_push
  get_pop := (example_reads R np nc k).get_pop
  ne := (example_reads R np nc k).ne

theorem ra_example_clocked (R : Rep) (np nc k : Nat) :
    Clocked (raMach true (program R Nat)) (raExampleSetup R np nc k) .post .wait (fun w t => (w.view t).vc) (fun w => w.posts.map (·.vc))
      (fun e => (evView e).vc) where
  other t s p ch s' p' e h u hu := by rw [(ra_view h).1 u hu]
  mono t s p ch s' p' e h := (ra_view h).2.1.2
  event t s p ch s' p' e h := by rw [((ra_view h).2.2.2 _ rfl).1]
  inside t s p ch s' p' e hp h := by rw [(ra_inside hp h).1]
  push t s v s' p' e h := by rw [(ra_call h).1]
  pop t s s' p' e h := by rw [(ra_call h).1]
  posting t s s' p' e h := by rw [(ra_post h).1]; simp
  waiting t s k s' p' e h := by
    obtain ⟨h1, ⟨v, h2, h3⟩, -⟩ := ra_wait h
    rw [h1]
    exact ⟨rfl, v.vc, by simp [h2], h3.2⟩
  exits := rfl
  joins := rfl
  publishes := rfl
  sees := rfl

theorem map_strip_fst : h.map (strip Prod.fst Prod.fst) = bare h := by
  apply List.map_congr_left
  intro e _
  cases e <;> rfl

/-- The calls of the program are an execution of the queue. -/
theorem ra_example_exec (hx : RaExampleRuns R n np nc k h C) : RaTextExec R true n h (Mach.baseOf (raMach true (program R Nat)) C) :=
  Runs.base (ra_example_plays R np nc k) hx

/-- **C64 (queue.cpp under release/acquire memory: no undefined behaviour).** -/
theorem queue_ra_example_no_undefined_behaviour (hf : R.Faithful) (hn : n + 1 ≤ R.limit) (hx : RaExampleRuns R n np nc k h C) (t : Nat) (a : Example.At) :
    C.pc t ≠ .call a .err := by
  intro he
  have := queue_ra_text_no_undefined_behaviour hf hn (ra_example_exec hx) t
  simp only [Mach.baseOf, Mach.pcOf, he] at this
  exact this rfl

/-- **C64 (queue.cpp: what the last `pop` has seen).** When `main` prints, every consumer has made a `pop` that found the queue empty, and the return of every `push` of the
program happens before it. -/
theorem queue_ra_example_last_pop (hx : RaExampleRuns R n np nc k h C) (hp : C.pc (np + nc) = .at .print) {t : Nat} (ht : np ≤ t) (ht' : t < np + nc) :
    ∃ i j, (bare h)[i]? = some (.inv t .pop) ∧ Returned (bare h) i j (.popped none) ∧
      ∀ m u v, (bare h)[m]? = some (.inv u (.push false v)) → ∃ j r, Returned (bare h) m j r ∧ HB h j i := by
  have hl := Runs.last_pop (ra_example_plays R np nc k) (ra_example_reads R np nc k) (ra_example_clocked R np nc k) rfl hx hp ht ht'
  rw [map_strip_fst] at hl
  obtain ⟨i, j, r, h5, h6, h7, h8⟩ := hl
  have hr : r = .popped none := by
    cases r with
    | popped x => cases x <;> simp [popAnswer] at h7 ⊢
    | _ => cases h7
  subst hr
  exact ⟨i, j, h5, h6, h8⟩

/-- **C64 (queue.cpp under release/acquire memory).** When `main` prints, there being at least one consumer, it prints that `np * k` objects were produced and as many
consumed; the values popped are the numbers from 1 to `np * k`, each once; the queue is empty. -/
theorem queue_ra_example (hf : R.Faithful) (hn : n + 1 ≤ R.limit) (hx : RaExampleRuns R n np nc k h C) (hc : 0 < nc) (hp : C.pc (np + nc) = .at .print) :
    C.s.2.producer_count = np * k ∧ C.s.2.consumer_count = np * k ∧ (delivered (bare h)).Perm ((List.range (np * k)).map (· + 1)) ∧ HoldsW R C.s.1.s [] := by
  have hi := Runs.inv (ra_example_plays R np nc k) (ra_example_reads R np nc k) hx
  rw [map_strip_fst] at hi
  have hte := ra_example_exec hx
  obtain ⟨h1, h2, h3, h4⟩ := hi.at_print hp
  rw [allPut_accepted] at h2
  rw [allPut_delivered] at h3
  obtain ⟨i, j, h5, h6, h8⟩ := queue_ra_example_last_pop hx hp (Nat.le_refl _) (by omega)
  have hops : ∀ (i t : Nat) (o : Op Nat), (bare h)[i]? = some (.inv t o) → (∃ v, o = .push false v) ∨ o = .pop := by
    intro i t o ho
    rcases hi.ops i t o ho with ⟨_, h⟩ | ⟨_, _, h⟩
    · exact .inl h
    · exact .inr h
  have h9 : (delivered (bare h)).Perm (accepted (bare h)) := by
    obtain ⟨L, hl⟩ := queue_ra_text_linearizable hf hn hte
    exact example_drained hl hops h4 h5 h6 h8
  have h10 : (delivered (bare h)).Perm ((List.range (np * k)).map (· + 1)) := h9.trans h2
  have hlen : C.s.2.consumer_count = np * k := by
    rw [h3]
    have := h10.length_eq
    simpa using this
  refine ⟨h1, hlen, h10, ?_⟩
  obtain ⟨vs, hv, hcons⟩ := queue_ra_text_conservation hf hn hte (fun t => by
    obtain ⟨a, ha, _⟩ := hi.all_at hp t
    simp only [Mach.baseOf, ha]; rfl)
  have : vs = [] := by
    have := (hcons.trans h9.symm).length_eq
    simp at this
    exact this
  rw [this] at hv
  exact hv

end Verif.Queue.Code
