import Verif.Queue.Pool
import Verif.Queue.Unsync
import Verif.Release

/-!
# Queue: the destructor (C20)
-/

namespace Verif.Queue
open Lin

variable {α : Type} {cfg : Cfg} {n : Nat} {h : History (Op α) (Ret α)} {C : Conf α}

/-- `while (unsynchronized_pop(dummy)) {}` (queue.hpp:289-290). `vs`: the elements popped, in order. -/
inductive Drain (cfg : Cfg) : St α → List α → St α → Prop where
  | done {fuel s s'} : s.popU cfg fuel = some (s', .popped none) → Drain cfg s [] s'
  | more {fuel s v s₁ vs s'} : s.popU cfg fuel = some (s₁, .popped (some v)) → Drain cfg s₁ vs s' →
      Drain cfg s (v :: vs) s'

/-- `pool.destruct<false>(head_.load())` (queue.hpp:292, freelist.hpp:104-110, 245-255, 474-482, 602-611): destroy the dummy node
and put it on the freelist. `none`: `head_` is null. -/
def St.destroyDummy (s : St α) : Option (Heap α) := s.head.ptr.map fun d => (s.heap.setData d none).deallocUnsafe d

/-- `~queue` of a node-based queue (queue.hpp:287-293): the body and then the destructor of the member `pool`. `vs`: the elements
popped; `out`: the nodes given back to the allocator, `none` for undefined behaviour. -/
def Destroys (cfg : Cfg) (s : St α) (vs : List α) (out : Option (List Nat)) : Prop :=
  ∃ s', Drain cfg s vs s' ∧ match s'.destroyDummy with
    | none => out = none
    | some h => h.destroyed out

/-! ### Pops -/

theorem popU_nalloc {r} : ∀ {fuel} {s s' : St α}, s.popU cfg fuel = some (s', r) → s'.heap.nalloc = s.heap.nalloc := by
  intro fuel
  induction fuel with
  | zero => intro s s' hp; simp [St.popU] at hp
  | succ fuel ih =>
    intro s s' hp
    unfold St.popU at hp
    split at hp
    · simp at hp
    · split at hp
      · split at hp
        · simp at hp; rw [hp.1]
        · exact ih hp
      · split at hp
        · exact (ih hp : _)
        · split at hp
          · simp at hp
          · simp at hp; rw [← hp.1]; rfl

theorem okNow.clean {s : St α} {p ch} (h : okNow s p ch) : okClean cfg s p ch := by
  refine ⟨h.fresh, ?_⟩
  rcases h.2 with rfl | ⟨o, rfl⟩ <;> cases p <;> rfl

theorem ExecD.steps_clean {D h' C'} (hx : ExecD cfg n h C D) (hs : MSteps (mach α cfg) (okClean cfg) C h' C') :
    ∃ D', ExecD cfg n (h ++ h') C' D' ∧ ∀ m, D' m ↔ D m := by
  induction hs with
  | refl => exact ⟨D, by simpa using hx, fun _ => .rfl⟩
  | @step h' C' t ch s' p' e _ hs hok ih =>
    obtain ⟨D', h1, h2⟩ := ih
    have h9 := ExecD.step h1 hs hok.1
    rw [List.append_assoc] at h9
    exact ⟨_, h9, fun m => by simp [hok.2, h2]⟩

theorem drain_pop {D fuel s' r} {σ : List α} (hx : ExecD cfg n h C D) (hq : ∀ t, C.pc t = .idle) (hσ : Holds C.s σ)
    (hp : C.s.popU cfg fuel = some (s', r)) :
    (∃ h' D', ExecD cfg n (h ++ h') ⟨s', C.pc⟩ D' ∧ ∀ m, D' m ↔ D m) ∧
    s'.heap.nalloc = C.s.heap.nalloc ∧ ∃ σ', Holds s' σ' ∧ specStep cfg.fixed σ .pop r σ' := by
  obtain ⟨k, _, h1⟩ := pop_runs hp 0
  have h3 := (h1.mono fun _ _ _ h => h.clean (cfg := cfg)).steps (C := C) rfl (hq 0)
  rw [upd_same (hq 0)] at h3
  obtain ⟨_, vs, vs', h4, h5, h6⟩ := queue_solo_call hx.freshExec hq (h3.mono fun _ _ _ h => h.1)
  rw [hσ.unique h4]
  obtain ⟨D', h7⟩ := hx.steps_clean h3
  exact ⟨⟨_, D', h7⟩, popU_nalloc hp, vs', h5, h6⟩

theorem Drain.exec {s s' : St α} {ws : List α} (hd : Drain cfg s ws s') : ∀ {h C D σ}, ExecD cfg n h C D → C.s = s →
    (∀ t, C.pc t = .idle) → Holds C.s σ →
    ws = σ ∧ s'.heap.nalloc = s.heap.nalloc ∧ Holds s' [] ∧ ∃ h' D', ExecD cfg n (h ++ h') ⟨s', C.pc⟩ D' ∧ ∀ m, D' m ↔ D m := by
  induction hd with
  | done ha =>
    rintro h C D σ hx rfl hq hσ
    obtain ⟨⟨h', D', h1, h2⟩, h3, σ', h4, h5⟩ := drain_pop hx hq hσ ha
    simp only [specStep] at h5
    obtain ⟨rfl, rfl⟩ : σ = [] ∧ σ' = [] := by simpa using h5
    exact ⟨rfl, h3, h4, _, D', h1, h2⟩
  | @more fuel s v s₁ vs s' ha _ ih =>
    rintro h C D σ hx rfl hq hσ
    obtain ⟨⟨h₁, D', h1, h2⟩, h3, σ', h4, h5⟩ := drain_pop hx hq hσ ha
    simp only [specStep] at h5
    have h6 : σ = v :: σ' := by simpa using h5
    obtain ⟨h7, h8, h9, h', D'', h10, h11⟩ := ih h1 rfl hq h4
    rw [List.append_assoc] at h10
    exact ⟨by rw [h6, h7], h8.trans h3, h9, _, D'', h10, fun m => (h11 m).trans (h2 m)⟩

theorem drain_exists {σ : List α} : ∀ {h C D}, ExecD cfg n h C D → (∀ t, C.pc t = .idle) → Holds C.s σ →
    ∃ s', Drain cfg C.s σ s' := by
  induction σ with
  | nil =>
    intro h C D hx hq hσ
    obtain ⟨g, c, hi, _⟩ := hx.freshExec.inv
    obtain ⟨s', r, h1⟩ := pop_defined hi.si (Nat.le_refl 2)
    obtain ⟨_, _, σ', _, h5⟩ := drain_pop hx hq hσ h1
    cases r with
    | popped v => cases v with
      | none => exact ⟨s', .done h1⟩
      | some v => simp [specStep] at h5
    | threw => exact absurd rfl (unsync_res (cfg := cfg) (fuel := 2) (s := C.s) (o := .pop) h1).1
    | _ => simp [specStep] at h5
  | cons v σ ih =>
    intro h C D hx hq hσ
    obtain ⟨g, c, hi, _⟩ := hx.freshExec.inv
    obtain ⟨s', r, h1⟩ := pop_defined hi.si (Nat.le_refl 2)
    obtain ⟨⟨h', D', h2, _⟩, _, σ', h4, h5⟩ := drain_pop hx hq hσ h1
    cases r with
    | popped v => cases v with
      | none => simp [specStep] at h5
      | some v =>
        simp [specStep] at h5
        obtain ⟨rfl, rfl⟩ := h5
        obtain ⟨s'', h6⟩ := ih h2 hq h4
        exact ⟨s'', .more h1 h6⟩
    | threw => exact absurd rfl (unsync_res (cfg := cfg) (fuel := 2) (s := C.s) (o := .pop) h1).1
    | _ => simp [specStep] at h5

/-! ### C20 -/

/-- **C20 (destructor).** Take any configuration reached with no call in progress; `D` are the nodes that throwing user code made
operations drop. The destructor of the queue finishes; it pops exactly the elements in the queue, oldest first, each once, leaves no
live object in any node that was not dropped, does not access or give back a node it has already given back or that was never
allocated, and gives each node that was not dropped back to the allocator exactly once, the dummy included. -/
theorem queue_destructor {D} {σ : List α} (hx : ExecD cfg n h C D) (hq : ∀ t, C.pc t = .idle) (hσ : Holds C.s σ) :
    (∃ l, Destroys cfg C.s σ (some l)) ∧
    (∀ ws out, Destroys cfg C.s ws out → ws = σ ∧
      ∃ l, out = some l ∧ l.Nodup ∧ ∀ m, m ∈ l ↔ m < C.s.heap.nalloc ∧ ¬ D m) ∧
    ∀ ws s' hp, Drain cfg C.s ws s' → s'.destroyDummy = some hp → ∀ m, ¬ D m → hp.data m = none := by
  have key : ∀ ws s', Drain cfg C.s ws s' → ws = σ ∧ ∃ hp, s'.destroyDummy = some hp ∧ (∀ m, ¬ D m → hp.data m = none) ∧
      ∃ l, (∀ out, hp.destroyed out ↔ out = some l) ∧ l.Nodup ∧ ∀ m, m ∈ l ↔ m < C.s.heap.nalloc ∧ ¬ D m := by
    intro ws s' hd
    obtain ⟨h1, h2, h3, h', D', h4, h5⟩ := hd.exec hx rfl hq hσ
    obtain ⟨g, c, hi, _, hD⟩ := h4.inv
    obtain ⟨d, S, h6, h7, h8⟩ := h3
    simp at h8; subst h8
    have hq' : ∀ m, g.own m = .str ↔ m = d := by
      intro m
      rw [← hi.inQueue, InQueue, reach_iff (l := [d]) ⟨h6, h7⟩]; simp
    have hraw : ∀ m, g.own m = .raw ↔ s'.heap.nalloc ≤ m := hi.si.heap.raw
    have hno : ∀ m, g.own m = .raw ∨ g.own m = .free ∨ g.own m = .lost ∨ m = d := by
      intro m
      have h7 : ∀ t, g.own m ≠ .thr t := by
        intro t; rw [Ne, ← hi.heldBy]; simp [hq t, HeldBy]
      cases hm : g.own m with
      | str => exact .inr (.inr (.inr ((hq' m).1 hm)))
      | thr t => exact absurd hm (h7 t)
      | _ => simp
    have hd' : g.own d = .str := (hq' d).2 rfl
    have hF : d ∉ g.F := by rw [← hi.si.heap.fmem, hd']; simp
    have hc : Chain s'.heap.next s'.heap.pool.ptr g.F := hi.si.heap.chain
    refine ⟨h1, (s'.heap.setData d none).deallocUnsafe d, by simp [St.destroyDummy, h6], fun m hm => ?_, (d :: g.F).reverse,
      fun out => Heap.destroyed_iff (F := d :: g.F) ?_ (List.nodup_cons.2 ⟨hF, hi.si.heap.fnodup⟩) ?_,
      List.nodup_reverse.2 (List.nodup_cons.2 ⟨hF, hi.si.heap.fnodup⟩), fun m => ?_⟩
    · show upd s'.heap.data d none m = none
      by_cases hmd : m = d
      · simp [hmd]
      · rw [upd_ne _ _ _ hmd]
        refine hi.si.heap.fdata m ?_
        rcases hno m with h6 | h6 | h6 | h6
        · exact .inr h6
        · exact .inl h6
        · exact absurd ((h5 m).1 ((hD m).1 h6)) hm
        · exact absurd h6 hmd
    · refine ⟨rfl, ?_⟩
      simp only [Heap.deallocUnsafe, Heap.setNextPtr, Heap.setData, upd_self]
      exact hc.congr fun m hm => by rw [upd_ne]; rintro rfl; exact hF hm
    · intro m hm
      show m < s'.heap.nalloc
      rw [← Nat.not_le, ← hraw]
      rcases List.mem_cons.1 hm with rfl | hm
      · simp [hd']
      · rw [(hi.si.heap.fmem m).2 hm]; simp
    · rw [List.mem_reverse, List.mem_cons, ← hi.si.heap.fmem, ← h5, ← hD, ← h2, ← Nat.not_le, ← hraw, ← hq']
      rcases hno m with h7 | h7 | h7 | h7
      · simp [h7]
      · simp [h7]
      · simp [h7]
      · subst h7; simp [hd']
  obtain ⟨s', hd⟩ := drain_exists hx hq hσ
  refine ⟨?_, ?_, fun ws s' hp hd he => ?_⟩
  · obtain ⟨_, hp, h0, _, l, h1, _⟩ := key _ _ hd
    exact ⟨l, s', hd, by rw [h0]; exact (h1 _).2 rfl⟩
  · rintro ws out ⟨s', hd, ho⟩
    obtain ⟨h1, hp, h0, _, l, h2, h3, h4⟩ := key _ _ hd
    rw [h0] at ho
    exact ⟨h1, l, (h2 _).1 ho, h3, h4⟩
  · obtain ⟨_, hp', h0, h1, _⟩ := key _ _ hd
    rw [he] at h0; cases h0; exact h1

/-- **C20 (destructor, no exceptions).** If no user code has thrown, all nodes ever allocated are given back, each once. -/
theorem queue_destructor_clean {σ : List α} (hx : MSteps (mach α cfg) (okClean cfg) (Conf.initial cfg n) h C)
    (hq : ∀ t, C.pc t = .idle) (hσ : Holds C.s σ) :
    (∃ l, Destroys cfg C.s σ (some l)) ∧
    ∀ ws out, Destroys cfg C.s ws out → ws = σ ∧ ∃ l, out = some l ∧ l.Perm (List.range C.s.heap.nalloc) := by
  obtain ⟨D, h1, h2⟩ := ExecD.of_clean hx
  obtain ⟨h3, h4, _⟩ := queue_destructor h1 hq hσ
  refine ⟨h3, fun ws out hd => ?_⟩
  obtain ⟨h6, l, h7, h8, h9⟩ := h4 ws out hd
  exact ⟨h6, l, h7, (List.perm_ext_iff_of_nodup h8 List.nodup_range).2 fun m => by rw [h9, List.mem_range]; simp [h2 m]⟩

end Verif.Queue
