import Verif.Stack.Solo
import Verif.Stack.Pool
import Verif.Stack.Unsync
import Verif.Release

/-!
# Stack: the destructor (C20)
-/

namespace Verif.Stack
open Lin

variable {α : Type} {cfg : Cfg} {n t : Nat} {h : History (Op α) (Ret α)} {C : Conf α}

/-- Body of `~stack` (stack.hpp:249-253): `consume_all` with a functor that does nothing, i.e. `while (consume_one(f))`
(stack.hpp:580-587), executed by thread `t` while no other thread uses the stack. `consume_one` is the thread-safe one of the
model, with a functor that does not throw (`pop false`); spurious failures of compare-exchanges are possible. `vs`: the elements
consumed (given to the functor and then destroyed), in order. -/
inductive Drain (cfg : Cfg) (t : Nat) : St α → List α → St α → Prop where
  | done {k s s'} :
      Alone (mach α cfg) (fun _ _ _ => True) t k s .idle [.inv t (.pop false), .res t (.popped none)] s' .idle →
      Drain cfg t s [] s'
  | more {k s v s₁ vs s'} :
      Alone (mach α cfg) (fun _ _ _ => True) t k s .idle [.inv t (.pop false), .res t (.popped (some v))] s₁ .idle →
      Drain cfg t s₁ vs s' → Drain cfg t s (v :: vs) s'

/-- `~stack` of a node-based stack: body and then the destructor of the member `pool`. `vs`: the elements destroyed; `out`: the
nodes given back to the allocator, `none` for undefined behaviour. -/
def Destroys (cfg : Cfg) (t : Nat) (s : St α) (vs : List α) (out : Option (List Nat)) : Prop :=
  ∃ s', Drain cfg t s vs s' ∧ s'.heap.destroyed out

/-! ### Steps of pops by a thread running alone -/

def Popping (cfg : Cfg) (s : St α) : PC α → Prop
  | .idle | .pload false | .papply false _ | .pdestroy _ _ | .free (.pop _) _ _ | .ret _ | .err => True
  | .ptest false o | .pcas false o _ => young cfg s.tosVer o
  | _ => False

theorem Popping.fresh {s : St α} {p : PC α} (h : Popping cfg s p) : fresh cfg s p := by
  cases p with
  | alloc b k a => exact h.elim
  | ccas => exact h.elim
  | pcas thr o nx => cases thr <;> first | exact h | exact h.elim
  | _ => trivial

theorem Popping.clean {s : St α} {p : PC α} (h : Popping cfg s p) (ch) : leaky p ch = false := by
  cases p with
  | papply thr => cases thr <;> first | rfl | exact h.elim
  | constr => exact h.elim
  | capply => exact h.elim
  | _ => rfl

theorem Popping.step {s s' : St α} {p p' : PC α} {ch e} (h : Popping cfg s p) (hs : Trans cfg t s p ch s' p' e)
    (ho : ∀ t o, e = some (.inv t o) → o = .pop false) : Popping cfg s' p' ∧ s'.heap.nalloc = s.heap.nalloc := by
  cases hs with
  | @call o _ h1 => cases ho _ _ rfl; simp [start] at h1; subst h1; exact ⟨trivial, rfl⟩
  | @freeMore k m d ch hp d' hd =>
    cases k with
    | pop v =>
      refine ⟨trivial, ?_⟩
      cases d <;> cases ch <;> simp [dStep] at hd
      · obtain ⟨rfl, _⟩ := hd; rfl
      · obtain ⟨rfl, _⟩ := hd; rfl
      · split at hd <;> simp at hd; obtain ⟨rfl, _⟩ := hd; rfl
      · obtain ⟨rfl, _⟩ := hd; rfl
    | _ => exact h.elim
  | @freeDone k m d ch hp hd =>
    cases k with
    | pop v =>
      refine ⟨trivial, ?_⟩
      cases d <;> cases ch <;> simp [dStep] at hd
      split at hd <;> simp at hd; subst hd; rfl
    | _ => exact h.elim
  | @pload thr => cases thr with
    | false => exact ⟨young_new _ _ _ rfl, rfl⟩
    | true => exact h.elim
  | @pcasFail thr => cases thr with
    | false => exact ⟨young_new _ _ _ rfl, rfl⟩
    | true => exact h.elim
  | @ptestSome thr => cases thr with
    | false => exact ⟨h, rfl⟩
    | true => exact h.elim
  | @ptestRacy thr => cases thr with
    | false => exact ⟨h, rfl⟩
    | true => exact h.elim
  | @pcasOk thr => cases thr with
    | false => exact ⟨trivial, rfl⟩
    | true => exact h.elim
  | _ => first
    | exact h.elim
    | exact ⟨trivial, rfl⟩

/-- Pops of a thread running alone meet no complete tag wrap and drop no node. -/
theorem Popping.alone {k} {s s' : St α} {p p' : PC α} (ha : Alone (mach α cfg) (fun _ _ _ => True) t k s p h s' p')
    (hp : Popping cfg s p) (ho : ∀ t o, .inv t o ∈ h → o = .pop false) :
    Alone (mach α cfg) (okClean cfg) t k s p h s' p' ∧ s'.heap.nalloc = s.heap.nalloc := by
  induction ha with
  | nil => exact ⟨.nil _ _, rfl⟩
  | @cons k s p ch s₁ p₁ e h s'' p'' hs _ _ ih =>
    have ht := trans_of_tstep hs
    obtain ⟨h1, h2⟩ := hp.step ht fun t o he => ho t o (by simp [he])
    obtain ⟨h3, h4⟩ := ih h1 fun t o hm => ho t o (by simp [hm])
    refine ⟨.cons hs ⟨⟨hp.fresh, ?_⟩, hp.clean ch⟩ h3, h4.trans h2⟩
    rintro b rfl
    cases ht with
    | call h5 => cases ho t (.pushRange b []) (by simp)
    | allocMore ha | allocGot ha | allocNull ha | allocBad ha => rw [aStep_call] at ha; cases ha
    | @freeMore k m d _ hp d' ha | @freeDone k m d _ hp ha => cases d <;> simp [dStep] at ha
    | lcasFail ha | pcasFail ha | ccasFail ha => simp at ha

theorem ExecD.steps_clean {D h' C'} (hx : ExecD cfg n h C D) (hs : MSteps (mach α cfg) (okClean cfg) C h' C') :
    ∃ D', ExecD cfg n (h ++ h') C' D' ∧ ∀ m, D' m ↔ D m := by
  induction hs with
  | refl => exact ⟨D, by simpa using hx, fun _ => .rfl⟩
  | @step h' C' t ch s' p' e _ hs hok ih =>
    obtain ⟨D', h1, h2⟩ := ih
    have h9 := ExecD.step h1 hs hok.1
    rw [List.append_assoc] at h9
    exact ⟨_, h9, fun m => by simp [hok.2, h2]⟩

/-- One `consume_one` of the destructor. -/
theorem drain_pop {D k s' r} {σ : List α} (hx : ExecD cfg n h C D) (hq : ∀ t, C.pc t = .idle) (hσ : Holds C.s σ)
    (ha : Alone (mach α cfg) (fun _ _ _ => True) t k C.s .idle [.inv t (.pop false), .res t r] s' .idle) :
    (∃ D', ExecD cfg n (h ++ [.inv t (.pop false), .res t r]) ⟨s', C.pc⟩ D' ∧ ∀ m, D' m ↔ D m) ∧
    s'.heap.nalloc = C.s.heap.nalloc ∧ ∃ σ', Holds s' σ' ∧ specStep cfg.fixed σ (.pop false) r σ' := by
  obtain ⟨h1, h2⟩ := Popping.alone ha trivial (by simp)
  have h3 := h1.steps (C := C) rfl (hq t)
  rw [upd_same (hq t)] at h3
  obtain ⟨_, vs, vs', h4, h5, h6⟩ := stack_solo_call hx.freshExec hq (h3.mono fun _ _ _ h => h.1)
  rw [hσ.unique h4]
  exact ⟨hx.steps_clean h3, h2, vs', h5, h6⟩

theorem Drain.exec {s s' : St α} {ws : List α} (hd : Drain cfg t s ws s') : ∀ {h C D σ}, ExecD cfg n h C D → C.s = s →
    (∀ t, C.pc t = .idle) → Holds C.s σ →
    ws = σ ∧ s'.heap.nalloc = s.heap.nalloc ∧ Holds s' [] ∧ ∃ h' D', ExecD cfg n (h ++ h') ⟨s', C.pc⟩ D' ∧ ∀ m, D' m ↔ D m := by
  induction hd with
  | done ha =>
    rintro h C D σ hx rfl hq hσ
    obtain ⟨⟨D', h1, h2⟩, h3, σ', h4, h5⟩ := drain_pop hx hq hσ ha
    simp only [specStep] at h5
    obtain ⟨rfl, rfl⟩ : σ = [] ∧ σ' = [] := by simpa using h5
    exact ⟨rfl, h3, h4, _, D', h1, h2⟩
  | @more k s v s₁ vs s' ha _ ih =>
    rintro h C D σ hx rfl hq hσ
    obtain ⟨⟨D', h1, h2⟩, h3, σ', h4, h5⟩ := drain_pop hx hq hσ ha
    simp only [specStep] at h5
    have h6 : σ = v :: σ' := by simpa using h5
    obtain ⟨h7, h8, h9, h', D'', h10, h11⟩ := ih h1 rfl hq h4
    rw [List.append_assoc] at h10
    exact ⟨by rw [h6, h7], h8.trans h3, h9, _, D'', h10, fun m => (h11 m).trans (h2 m)⟩

theorem drain_exists (t : Nat) {σ : List α} : ∀ {h C}, FreshExec cfg n h C → (∀ t, C.pc t = .idle) → Holds C.s σ →
    ∃ s', Drain cfg t C.s σ s' := by
  induction σ with
  | nil =>
    intro h C hx hq hσ
    obtain ⟨S, h1, h2⟩ := hσ
    simp at h2; subst h2
    have h3 : C.s.popU cfg = some (C.s, .popped none) := by simp only [St.popU, show C.s.tos.ptr = none from h1]
    obtain ⟨k, _, h4⟩ := pop_runs h3 t
    exact ⟨_, .done (h4.mono fun _ _ _ _ => trivial)⟩
  | cons v σ ih =>
    intro h C hx hq hσ
    have hσ' := hσ
    obtain ⟨S, h1, h2⟩ := hσ
    cases S with
    | nil => simp at h2
    | cons m S =>
      obtain ⟨h1, h1'⟩ := h1
      simp at h2
      obtain ⟨s', h3⟩ : ∃ s', C.s.popU cfg = some (s', .popped (some v)) := by
        simp only [St.popU, h1, h2.1]; exact ⟨_, rfl⟩
      obtain ⟨k, _, h4⟩ := pop_runs h3 t
      have h5 := (h4.mono fun _ _ _ h => h.fresh (cfg := cfg)).steps (C := C) rfl (hq t)
      rw [upd_same (hq t)] at h5
      obtain ⟨_, vs, vs', h6, h7, h8⟩ := stack_solo_call hx hq h5
      rw [← hσ'.unique h6] at h8
      simp only [specStep] at h8
      have h9 : σ = vs' := by simpa using h8
      subst h9
      obtain ⟨s'', h10⟩ := ih (hx.trans h5) hq h7
      exact ⟨s'', .more (h4.mono fun _ _ _ _ => trivial) h10⟩

/-! ### C20 -/

/-- **C20 (destructor).** Take any configuration reached with no call in progress; `D` are the nodes that throwing user code made
operations drop. The destructor of the stack, run by any thread, can finish; however it runs, it destroys exactly the elements in
the stack, top first, each once, leaves no live object in any node that was not dropped, does not access or give back a node it has
already given back or that was never allocated, and gives each node that was not dropped back to the allocator exactly once. -/
theorem stack_destructor {D} {σ : List α} (hx : ExecD cfg n h C D) (hq : ∀ t, C.pc t = .idle) (hσ : Holds C.s σ) (t : Nat) :
    (∃ l, Destroys cfg t C.s σ (some l)) ∧
    (∀ ws out, Destroys cfg t C.s ws out → ws = σ ∧
      ∃ l, out = some l ∧ l.Nodup ∧ ∀ m, m ∈ l ↔ m < C.s.heap.nalloc ∧ ¬ D m) ∧
    ∀ ws s', Drain cfg t C.s ws s' → ∀ m, ¬ D m → s'.heap.data m = none := by
  have key : ∀ ws s', Drain cfg t C.s ws s' → ws = σ ∧ (∀ m, ¬ D m → s'.heap.data m = none) ∧
      ∃ l, (∀ out, s'.heap.destroyed out ↔ out = some l) ∧ l.Nodup ∧ ∀ m, m ∈ l ↔ m < C.s.heap.nalloc ∧ ¬ D m := by
    intro ws s' hd
    obtain ⟨h1, h2, h3, h', D', h4, h5⟩ := hd.exec hx rfl hq hσ
    obtain ⟨g, c, hi, _, hD⟩ := h4.inv
    have hraw := hi.si.heap.raw
    have hno : ∀ m, g.own m = .raw ∨ g.own m = .free ∨ g.own m = .lost := by
      intro m
      have h6 : g.own m ≠ .str := by
        obtain ⟨S, h7, h8⟩ := h3
        simp at h8; subst h8
        rw [Ne, ← hi.inStack, InStack, reach_iff h7]; simp
      have h7 : ∀ t, g.own m ≠ .thr t := by
        intro t; rw [Ne, ← hi.heldBy]; simp [hq t, HeldBy]
      cases hm : g.own m with
      | str => exact absurd hm h6
      | thr t => exact absurd hm (h7 t)
      | _ => simp
    refine ⟨h1, fun m hm => hi.si.heap.fdata m ?_, g.F.reverse, fun out => Heap.destroyed_iff hi.si.heap.chain hi.si.heap.fnodup ?_,
      List.nodup_reverse.2 hi.si.heap.fnodup, fun m => ?_⟩
    · rcases hno m with h6 | h6 | h6
      · exact .inr h6
      · exact .inl h6
      · exact absurd ((h5 m).1 ((hD m).1 h6)) hm
    · intro m hm
      rw [← hi.si.heap.fmem] at hm
      have := hraw m
      simp [hm] at this
      exact this
    · rw [List.mem_reverse, ← hi.si.heap.fmem, ← h5, ← hD, ← h2, ← Nat.not_le]
      have h6 := hraw m
      simp only at h6
      rw [← h6]
      rcases hno m with h7 | h7 | h7 <;> simp [h7]
  obtain ⟨s', hd⟩ := drain_exists t hx.freshExec hq hσ
  refine ⟨?_, ?_, fun ws s' hd => (key ws s' hd).2.1⟩
  · obtain ⟨_, _, l, h1, _⟩ := key _ _ hd
    exact ⟨l, s', hd, (h1 _).2 rfl⟩
  · rintro ws out ⟨s', hd, ho⟩
    obtain ⟨h1, _, l, h2, h3, h4⟩ := key _ _ hd
    exact ⟨h1, l, (h2 _).1 ho, h3, h4⟩

/-- **C20 (destructor, no exceptions).** If no user code has thrown, all nodes ever allocated are given back, each once, and no
element is left. -/
theorem stack_destructor_clean {σ : List α} (hx : MSteps (mach α cfg) (okClean cfg) (Conf.initial n) h C)
    (hq : ∀ t, C.pc t = .idle) (hσ : Holds C.s σ) (t : Nat) :
    (∃ l, Destroys cfg t C.s σ (some l)) ∧
    (∀ ws out, Destroys cfg t C.s ws out → ws = σ ∧ ∃ l, out = some l ∧ l.Perm (List.range C.s.heap.nalloc)) ∧
    ∀ ws s', Drain cfg t C.s ws s' → ∀ m, s'.heap.data m = none := by
  obtain ⟨D, h1, h2⟩ := ExecD.of_clean hx
  obtain ⟨h3, h4, h5⟩ := stack_destructor h1 hq hσ t
  refine ⟨h3, fun ws out hd => ?_, fun ws s' hd m => h5 ws s' hd m (h2 m)⟩
  obtain ⟨h6, l, h7, h8, h9⟩ := h4 ws out hd
  exact ⟨h6, l, h7, (List.perm_ext_iff_of_nodup h8 List.nodup_range).2 fun m => by rw [h9, List.mem_range]; simp [h2 m]⟩

end Verif.Stack
