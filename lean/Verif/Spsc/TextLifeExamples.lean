import Verif.Spsc.TextLife
import Verif.Spsc.TextExamples
import Verif.TextLifeExamples

/-!
# `reset()`, constructors and destructors of `spsc_queue`: concrete executions (C60)

No further code of /repo is modelled here.
-/

namespace Verif.Spsc.Code.TextEx
open Lin Text

/-- Calls allowed by `okSince` that the examples use. -/
def okd (a : Nat) (s : St Nat) : Op Nat → Bool
  | .front false => decide (a ≤ s.wlast ∧ s.wlast ≤ s.vc.w ∧ (s.R s.rlast).cnt < (s.W s.wlast).cnt ∧ (s.W s.wlast).view.p ≤ s.vc.p)
  | o => okc s o

theorem okd_spec (a : Nat) (s : St Nat) (o : Op Nat) (h : okd a s o = true) : okSince a s o := by
  unfold okd at h
  split at h
  · have h := of_decide_eq_true h
    exact ⟨by simp [fits], fun _ => ⟨s.wlast, h.1, Nat.le_refl _, h.2⟩⟩
  · rename_i h1
    exact ⟨(okc_spec s o h).1, fun h2 => absurd h2 h1⟩

/-- `reset()`, with the given choices of stores to load -/
def resetBy (cfg : Cfg) (sc : Bool) (js : List Nat) (C : TConf Nat) : Option (St Nat × Unit) :=
  (resetProgram Nat cfg sc).finish 1 200 (js.map .go) C.s.joined (.run Loc.init [.stm (Code.reset cfg sc)])

theorem go_calm {js : List Nat} : ∀ c ∈ js.map (Choice.go (α := Nat)), calm c := by
  intro c hc
  simp only [List.mem_map] at hc
  obtain ⟨j, -, rfl⟩ := hc
  rfl

theorem reset_moves {cfg : Cfg} {sc : Bool} {js : List Nat} {C : TConf Nat} {s} (hr : resetBy cfg sc js C = some (s, ())) :
    ∃ n b, Moves (resetProgram Nat cfg sc).mach ((resetProgram Nat cfg sc).okAl calm) (spurious fun _ => false) 1 C.s.joined
      (.run Loc.init [.stm (Code.reset cfg sc)]) [] s (.ret ()) n b := by
  obtain ⟨k, hk⟩ := finish_alone hr go_calm
  obtain ⟨n, b, h, -⟩ := alone_moves hk
  exact ⟨n, b, h⟩

/-! ### A type with trivial destructor; loads return the latest store -/

abbrev cfgT : Cfg := ⟨3, true⟩
theorem cfgT_holds : Holds cfgT 2 := ⟨rfl, by decide⟩

/-- The queue is filled, one element is taken. -/
def L1 : TConf Nat := (program Nat cfgT true).after (okd 0) start (calls 0 (.push 1) [0, 0, 0, 0] ++ calls 0 (.push 2) [1, 0, 0, 0] ++ calls 1 .pop [2, 0, 0, 0, 0])

def historyL1 : History (Op Nat) (Ret Nat) :=
  [.inv 0 (.push 1), .res 0 (.pushed true), .inv 0 (.push 2), .res 0 (.pushed true), .inv 1 .pop, .res 1 (.popped (some 1))]

set_option maxRecDepth 8000 in
theorem part_L1 : MSteps (program Nat cfgT true).mach (Program.ok (okSince 0)) start historyL1 L1 := Text.after_steps (okd_spec 0) rfl

theorem used_L1 : Used cfgT true 0 historyL1 L1 := .use .fresh part_L1

set_option maxRecDepth 8000 in
theorem idle_L1 : L1.pc = fun _ => .idle := by
  funext t
  match t with
  | 0 => rfl
  | 1 => rfl
  | t + 2 => rfl

/-- after `reset()` -/
def L2 : TConf Nat := ⟨(((resetBy cfgT true [0, 0] L1).map Prod.fst).getD .initial).joined, fun _ => .idle⟩

set_option maxRecDepth 8000 in
theorem reset_L1 : ∃ s, resetBy cfgT true [0, 0] L1 = some (s, ()) ∧ L2 = ⟨s.joined, fun _ => .idle⟩ ∧ s.wlast = 3 := ⟨_, rfl, rfl, rfl⟩

/-- C60: the queue is used, and reset while one element is in it; stores number 3 of `write_index_` and 2 of `read_index_` are those of `reset()` -/
theorem used_L2 : Used cfgT true 3 [] L2 := by
  obtain ⟨s, h1, h2, h3⟩ := reset_L1
  obtain ⟨n, b, hm⟩ := reset_moves h1
  have := Used.reset used_L1 idle_L1 hm
  rw [h2]
  simpa [h3] using this

/-- C60 (`reset()`) -/
example : ∃ s, resetBy cfgT true [0, 0] L1 = some (s, ()) ∧ s.rel = s.acc.length ∧ (s.W s.wlast).val = 0 ∧ (s.R s.rlast).val = 0 ∧ L1.s.rel = 1 ∧ L1.s.acc = [1, 2] := by
  obtain ⟨s, h1, -⟩ := reset_L1
  obtain ⟨n, b, hm⟩ := reset_moves h1
  have h := returned rfl (spsc_text_reset cfgT_holds used_L1 idle_L1) hm
  exact ⟨s, h1, h.1, h.2.2.1, h.2.2.2.1, by set_option maxRecDepth 8000 in rfl, by set_option maxRecDepth 8000 in rfl⟩

/-- The queue is used again: a range is pushed, and read without `BOOST_ASSERT`. -/
def schedL3 : List (Nat × TChoice (Choice Nat) (Op Nat)) :=
  calls 0 (.pushMany [7, 8]) [3, 2, 0, 0, 0] ++ calls 1 .readAvail [4, 2] ++ calls 1 (.front false) [2, 0] ++ calls 1 .pop [4, 2, 0, 0, 0]

def historyL3 : History (Op Nat) (Ret Nat) :=
  [.inv 0 (.pushMany [7, 8]), .res 0 (.pushedMany 2), .inv 1 .readAvail, .res 1 (.readAvail 2), .inv 1 (.front false), .res 1 (.front 7),
    .inv 1 .pop, .res 1 (.popped (some 7))]

def L3 : TConf Nat := (program Nat cfgT true).after (okd 3) L2 schedL3

set_option maxRecDepth 8000 in
theorem part_L3 : MSteps (program Nat cfgT true).mach (Program.ok (okSince 3)) L2 historyL3 L3 := Text.after_steps (okd_spec 3) rfl

theorem used_L3 : Used cfgT true 3 historyL3 L3 := .use used_L2 part_L3

/-- C60 (linearizability) -/
example : Linearizable (spec Nat 2) historyL3 := spsc_life_linearizable cfgT_holds used_L3

/-- C60 (refinement): an execution in which the modification orders are restarted -/
example : ∃ b C', TextExec cfgT true historyL3 C' ∧ Shift 3 b L3.s C'.s ∧ C'.pc = L3.pc := spsc_life_refines cfgT_holds used_L3

set_option maxRecDepth 8000 in
/-- C60 (nothing lost) -/
example : accepted historyL3 = [7, 8] ∧ delivered historyL3 = [7] ∧ accepted historyL3 = delivered historyL3 ++ L3.s.acc.drop L3.s.rel :=
  ⟨rfl, rfl, (spsc_life_fifo_quiescent cfgT_holds used_L3 rfl rfl).2.2.2⟩

/-- C60 (first in, first out) -/
example : ∃ inflight, inflight <+: (pendingOp 0 historyL3).elim [] offers ∧ delivered historyL3 <+: accepted historyL3 ++ inflight := spsc_life_fifo cfgT_holds used_L3

set_option maxRecDepth 8000 in
/-- C60 (capacity after `reset()`): the range is accepted as a whole -/
example : (Ret.pushedMany 2 : Ret Nat) = .pushedMany [7, 8].length := by
  have hp : MSteps (program Nat cfgT true).mach (Program.ok (okSince 3)) L2 [.inv 0 (.pushMany [7, 8]), .res 0 (.pushedMany 2)] _ :=
    Text.after_steps (okd_spec 3) (sched := calls 0 (.pushMany [7, 8]) [3, 2, 0, 0, 0]) rfl
  obtain ⟨s, h1, h2, h3⟩ := reset_L1
  obtain ⟨n, b, hm⟩ := reset_moves h1
  rw [h2] at hp
  exact (spsc_life_reset_capacity cfgT_holds used_L1 idle_L1 hm (by simpa [h3] using hp) (by simp) rfl (by simp)).1

set_option maxRecDepth 8000 in
/-- C60 (capacity) -/
example : (Ret.pushedMany 2 : Ret Nat) = .pushedMany [7, 8].length :=
  (spsc_life_full_capacity cfgT_holds used_L2 rfl rfl rfl (h' := [.inv 0 (.pushMany [7, 8]), .res 0 (.pushedMany 2)])
    (Text.after_steps (okd_spec 3) (sched := calls 0 (.pushMany [7, 8]) [3, 2, 0, 0, 0]) rfl) (by simp) rfl (by simp)).1

set_option maxRecDepth 8000 in
/-- C60 (calls of the producer) -/
example : producerPost 2 L2.s L3.s (.pushMany [7, 8]) (.pushedMany 2) :=
  spsc_life_producer_call cfgT_holds used_L2 rfl part_L3 rfl

set_option maxRecDepth 8000 in
/-- C60 (reliability of `read_available()`), and `front()` without `BOOST_ASSERT` -/
example : (2 ≤ 2) ∧ PopsServed 2 [(.front false, .front 7), (.pop, .popped (some 7))] := by
  obtain ⟨h1, h2, -⟩ := spsc_life_read_available_reliable cfgT_holds used_L2 rfl part_L3 (n := 2) (cs := [(.front false, .front 7), (.pop, .popped (some 7))]) rfl
  exact ⟨h1, h2⟩

/-! ### A type whose destructor is not trivial; stale loads -/

/-- The queue is filled; a load returns an old store; one element is taken. -/
def M1 : TConf Nat := (program Nat cfg2 false).after (okd 0) start
  (calls 0 (.push 1) [0, 0, 0, 0] ++ calls 0 (.push 2) [1, 0, 0, 0] ++ calls 1 .pop [1, 0, 0, 0, 0] ++ calls 0 (.push 3) [2, 0])

def historyM1 : History (Op Nat) (Ret Nat) :=
  [.inv 0 (.push 1), .res 0 (.pushed true), .inv 0 (.push 2), .res 0 (.pushed true), .inv 1 .pop, .res 1 (.popped (some 1)), .inv 0 (.push 3), .res 0 (.pushed false)]

set_option maxRecDepth 8000 in
theorem used_M1 : Used cfg2 false 0 historyM1 M1 := .use .fresh (Text.after_steps (okd_spec 0) rfl)

set_option maxRecDepth 8000 in
theorem idle_M1 : M1.pc = fun _ => .idle := by
  funext t
  match t with
  | 0 => rfl
  | 1 => rfl
  | t + 2 => rfl

def M2 : TConf Nat := ⟨(((resetBy cfg2 false [2, 1, 0, 0, 0] M1).map Prod.fst).getD .initial).joined, fun _ => .idle⟩

set_option maxRecDepth 8000 in
theorem reset_M1 : ∃ s, resetBy cfg2 false [2, 1, 0, 0, 0] M1 = some (s, ()) ∧ M2 = ⟨s.joined, fun _ => .idle⟩ := ⟨_, rfl, rfl⟩

def historyM2 : History (Op Nat) (Ret Nat) := historyM1 ++ [.inv 1 (.popMany false none), .res 1 (.poppedMany [2])]

set_option maxRecDepth 8000 in
/-- C60: `reset()` destroys the element -/
theorem used_M2 : Used cfg2 false 0 historyM2 M2 := by
  obtain ⟨s, h1, h2⟩ := reset_M1
  obtain ⟨n, b, hm⟩ := reset_moves h1
  rw [h2]
  exact Used.reset used_M1 idle_M1 hm

set_option maxRecDepth 8000 in
/-- C60 (`reset()`) -/
example : ∃ s, resetBy cfg2 false [2, 1, 0, 0, 0] M1 = some (s, ()) ∧ s.dtor = s.ctor ∧ s.ctor = M1.s.ctor ∧ M1.s.ctor = 2 ∧ M1.s.dtor = 1 := by
  obtain ⟨s, h1, -⟩ := reset_M1
  obtain ⟨n, b, hm⟩ := reset_moves h1
  have h := returned rfl (spsc_text_reset cfg2_holds used_M1 idle_M1) hm
  exact ⟨s, h1, h.2.2.2.2.1, h.2.1, rfl, rfl⟩

/-- The queue is used again; a push is in progress while the consumer pops. -/
def schedM3 : List (Nat × TChoice (Choice Nat) (Op Nat)) :=
  calls 0 (.pushMany [4, 5]) [2, 2, 0, 0, 0] ++ calls 1 .pop [3, 2, 0, 0, 0] ++ calls 0 .writeAvail [3, 2] ++ calls 0 (.push 6) [3, 3]

def M3 : TConf Nat := (program Nat cfg2 false).after (okd 0) M2 schedM3

def historyM3 : History (Op Nat) (Ret Nat) :=
  [.inv 0 (.pushMany [4, 5]), .res 0 (.pushedMany 2), .inv 1 .pop, .res 1 (.popped (some 4)), .inv 0 .writeAvail, .res 0 (.writeAvail 0), .inv 0 (.push 6)]

set_option maxRecDepth 8000 in
theorem part_M3 : MSteps (program Nat cfg2 false).mach (Program.ok (okSince 0)) M2 historyM3 M3 := Text.after_steps (okd_spec 0) rfl

theorem used_M3 : Used cfg2 false 0 (historyM2 ++ historyM3) M3 := .use used_M2 part_M3

set_option maxRecDepth 8000 in
/-- C60 (objects): two elements have been destroyed by `pop`, one by `reset()` -/
example : M2.s.ctor = 2 ∧ M2.s.dtor = 2 ∧ M2.s.ctor = M2.s.dtor + ((accepted historyM2).length - (delivered historyM2).length) :=
  ⟨rfl, rfl, (spsc_life_balance cfg2_holds used_M2 rfl rfl rfl).1⟩

set_option maxRecDepth 8000 in
/-- C60 (slots) -/
example : M2.s.cell (2 % 3) = none := (spsc_life_slots cfg2_holds used_M2 rfl rfl (q := 2) (by decide) (by decide)).2 (by decide) rfl

set_option maxRecDepth 8000 in
/-- C60 (calls of the consumer) -/
example : consumerPost M2.s M3.s .pop (.popped (some 4)) := spsc_life_consumer_call cfg2_holds used_M2 rfl part_M3 rfl

def isIdle : TPC (St Nat) (Loc Nat) (Choice Nat) (Ret Nat) → Bool
  | .idle => true
  | _ => false

set_option maxRecDepth 8000 in
/-- C60 (never stuck): a push in progress -/
example : ∃ ch y, (ch = .tau ∨ ∃ c, ch = .act c ∧ calm c) ∧ Program.ok (okSince 0) M3.s (M3.pc 0) ch ∧ (program Nat cfg2 false).mach.step 0 M3.s (M3.pc 0) ch = some y :=
  spsc_life_never_blocks cfg2_holds used_M3 (fun h => by have : isIdle (M3.pc 0) = false := rfl; rw [h] at this; cases this)

/-- C60 (no undefined behaviour) -/
example : M3.pc 0 ≠ .err := spsc_life_no_undefined_behaviour cfg2_holds used_M3 0

set_option maxRecDepth 8000 in
/-- C60 (reliability of `write_available()`) -/
example : (2 ≤ 2) ∧ PushesServed 2 [(.pushMany [4, 5], .pushedMany 2)] :=
  spsc_life_write_available_reliable cfg2_holds used_M2 rfl (n := 2) (cs := [(.pushMany [4, 5], .pushedMany 2)])
    (h' := [.inv 0 .writeAvail, .res 0 (.writeAvail 2), .inv 0 (.pushMany [4, 5]), .res 0 (.pushedMany 2)])
    (Text.after_steps (okd_spec 0) (sched := calls 0 .writeAvail [2, 2] ++ calls 0 (.pushMany [4, 5]) [2, 2, 0, 0, 0]) rfl) rfl

set_option maxRecDepth 8000 in
/-- C60 (`front()`) -/
example : (delivers ((.pop, .popped (some 7)) : Op Nat × Ret Nat)).head? = some 7 := by
  have hu : Used cfgT true 3 _ _ := .use used_L2 (Text.after_steps (h := [.inv 0 (.pushMany [7, 8]), .res 0 (.pushedMany 2), .inv 1 .readAvail, .res 1 (.readAvail 2)])
    (okd_spec 3) (sched := calls 0 (.pushMany [7, 8]) [3, 2, 0, 0, 0] ++ calls 1 .readAvail [4, 2]) rfl)
  exact spsc_life_front cfgT_holds hu rfl (b := false) (v := 7) (o := .pop) (r := .popped (some 7))
    (h' := [.inv 1 (.front false), .res 1 (.front 7), .inv 1 .pop, .res 1 (.popped (some 7))])
    (Text.after_steps (okd_spec 3) (sched := calls 1 (.front false) [2, 0] ++ calls 1 .pop [4, 2, 0, 0, 0]) rfl) rfl trivial (by simp) (by simp)

theorem counted {S PC Ch O R : Type} {m : Mach S PC Ch O R} {ok : S → PC → Ch → Prop} {w : Nat → Ch → Nat} {C C₁ : MConf S PC} {h} (hx : MSteps m ok C h C₁) :
    ∃ n, MSteps (m.count w) (fun s => ok s.1) ⟨(C.s, 0), C.pc⟩ h ⟨(C₁.s, n), C₁.pc⟩ := by
  induction hx with
  | refl => exact ⟨0, .refl _⟩
  | @step h C t ch s₂ p₂ e _ hs hok ih =>
    obtain ⟨n, ih⟩ := ih
    exact ⟨_, ih.step (t := t) (ch := ch) (by simp [Mach.count, hs]; rfl) hok⟩

/-- C60 (wait-freedom): `pop` while the producer makes calls -/
example : ∃ n, MSteps ((program Nat cfg2 false).mach.count (stepsOfThread 1)) (fun s => Program.ok (okSince 0) s.1) ⟨(M2.s, 0), M2.pc⟩ historyM3 ⟨(M3.s, n), M3.pc⟩ ∧
    n ≤ 62 * stepsOf 2 .pop (.popped (some 4)) := by
  obtain ⟨n, h⟩ := counted (w := stepsOfThread 1) part_M3
  exact ⟨n, h, (spsc_life_wait_free cfg2_holds used_M2 (by decide) rfl h (List.prefix_refl _)).2 rfl⟩

/-! ### Construction and destruction -/

/-- Memory before construction -/
def rawRing : Ring Nat := ⟨{ St.initial with rlast := 5, cell := fun _ => some 77 }, 9, none, []⟩

set_option maxRecDepth 8000 in
/-- C60 (constructor): capacity 2 -/
example : ∃ s, (ctorProgram Nat true).run [.go 0, .go 0, .go 0] rawRing 2 = some (s, true) ∧ s.st = .initial ∧ s.array = some 3 ∧ Holds ⟨s.max_elements, false⟩ 2 := by
  have hr : (ctorProgram Nat true).run [.go 0, .go 0, .go 0] rawRing 2 = some (_, true) := rfl
  have h := (spsc_text_constructor rawRing 2 0).post (by simp) hr
  obtain ⟨h1, h2, h3⟩ := h.2.1 rfl
  exact ⟨_, hr, h1, h3, by rw [h2]; exact spsc_constructed_holds (n := 2) (by decide) false⟩

/-- C60 (constructor): the allocator throws -/
example : ∃ s, (ctorProgram Nat true).run [.go 0, .go 0, .throw] rawRing 2 = some (s, false) ∧ s.array = none := by
  have hr : (ctorProgram Nat true).run [.go 0, .go 0, .throw] rawRing 2 = some (_, false) := rfl
  exact ⟨_, hr, ((spsc_text_constructor rawRing 2 0).post (by simp) hr).2.2 rfl⟩

/-- C60 (constructor): capacity at compile time -/
example : ∃ s, (ctorProgram Nat false).run [.go 0] rawRing 0 = some (s, true) ∧ s.st = .initial := by
  have hr : (ctorProgram Nat false).run [.go 0] rawRing 0 = some (_, true) := rfl
  have h := (spsc_text_constructor_fixed rawRing 0 0).post (by simp) hr
  exact ⟨_, hr, by rw [h.2]⟩

/-- The queue in which `M1` leaves the element 2 -/
def ringM1 : Ring Nat := ⟨M1.s.joined, 3, some 3, []⟩

set_option maxRecDepth 8000 in
/-- C60 (destructor) -/
example : ∃ s, (dtorProgram Nat cfg2 false true).finish 1 200 ([2, 1, 0, 0, 0, 0].map .go) ringM1 (.run Loc.init [.stm (dtor cfg2 false true)]) = some (s, ()) ∧
    s.st.out = [1, 2] ∧ s.st.dtor = s.st.ctor ∧ s.array = none ∧ s.freed = [3] := by
  have hr : (dtorProgram Nat cfg2 false true).finish 1 200 ([2, 1, 0, 0, 0, 0].map .go) ringM1 (.run Loc.init [.stm (dtor cfg2 false true)]) = some (_, ()) := rfl
  obtain ⟨k, hk⟩ := finish_alone hr go_calm
  obtain ⟨n, b, hm, -⟩ := alone_moves hk
  have h := returned rfl (spsc_text_destructor cfg2_holds used_M1 idle_M1 true (s := ringM1) rfl (fun _ => ⟨rfl, rfl⟩)) hm
  exact ⟨_, hr, h.2.2.1, (h.2.2.2.2.1 rfl).1, h.2.2.2.2.2.1, h.2.2.2.2.2.2⟩

end Verif.Spsc.Code.TextEx
