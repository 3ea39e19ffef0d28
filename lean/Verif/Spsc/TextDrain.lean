import Verif.Spsc.Shift

/-!
# The program text of `spsc_queue`: `consume_all` while no other call is in progress (C60)

No further code of /repo is modelled here.
-/

namespace Verif.Spsc
open Lin

variable {α : Type}

/-- All threads have synchronised, by means outside the queue. -/
def St.joined (s : St α) : St α := { s with vp := s.vp.join s.vc, vc := s.vp.join s.vc }

namespace Code
open Text

variable {cfg : Cfg} {sc : Bool} {N : Nat} {h h' : History (Op α) (Ret α)} {C C' : TConf α}

/-- No exception is thrown. (`sync` is not the resolution of an access.) -/
def calm (ch : Choice α) : Prop := isOut true ch = false

theorem idle_upd {q : TPC (St α) (Loc α) (Choice α) (Ret α)} (t : Nat) (h : q = .idle) :
    upd (fun _ : Nat => (.idle : TPC (St α) (Loc α) (Choice α) (Ret α))) t q = fun _ => .idle := by
  subst h; exact upd_eq_self _ t

/-- Synchronisation of both threads is possible. -/
theorem sync_steps (s : St α) : MSteps (program α cfg sc).mach (Program.ok okCall) ⟨s, fun _ => .idle⟩ [] ⟨s.joined, fun _ => .idle⟩ := by
  have h1 : (program α cfg sc).mach.step 0 s .idle (.env .sync) = some ({ s with vp := s.vp.join s.vc }, .idle, none) := rfl
  have h2 : (program α cfg sc).mach.step 1 { s with vp := s.vp.join s.vc } .idle (.env .sync) = some (s.joined, .idle, none) := by
    simp only [Program.mach, program, Option.map_some, St.joined]
    congr 3
    simp only [View.join, View.mk.injEq]
    omega
  have h3 := (MSteps.refl (m := (program α cfg sc).mach) (ok := Program.ok okCall) ⟨s, fun _ => .idle⟩).step (t := 0) (ch := .env .sync) h1 (by simp [Program.ok])
  rw [idle_upd _ rfl] at h3
  have h4 := h3.step (t := 1) (ch := .env .sync) h2 (by simp [Program.ok])
  rw [idle_upd _ rfl] at h4
  exact h4

theorem joined_exec (hx : TextExec cfg sc h ⟨C.s, fun _ => .idle⟩) : TextExec cfg sc h ⟨C.s.joined, fun _ => .idle⟩ := by
  obtain ⟨s₀, h1, h2⟩ := hx
  exact ⟨s₀, h1, by simpa using h2.trans (sync_steps _)⟩

/-- Places in a bulk pop from which, without exceptions, it does not return `threw`. -/
def Bulk : PC α → Prop
  | .bulk1 _ _ | .bulk2 _ _ _ | .bulkRead _ _ _ _ _ _ | .bulkDestroy _ _ _ _ _ _ | .bulkStore _ _ | .err => True
  | .ret r => r ≠ .threw
  | _ => False

theorem bulkNext_bulk (copy : Bool) (i rem rest : Nat) (outs : List α) (newR : SizeT) : Bulk (bulkNext copy i rem rest outs newR) := by
  unfold bulkNext; (repeat' split) <;> trivial

theorem bulkPlan_bulk (cfg : Cfg) (copy : Bool) (lim : Option Nat) (w r : SizeT) : Bulk (bulkPlan (α := α) cfg copy lim w r) := by
  unfold bulkPlan
  dsimp only
  split
  · simp [Bulk]
  · split <;> exact bulkNext_bulk ..

theorem Bulk.step {p p' : PC α} (hb : Bulk p) {t : Nat} {s s' : St α} {ch : Choice α} (hc : isOut true ch = false)
    (hs : tstep cfg t s p ch = some (s', p', none)) : Bulk p' := by
  cases ch with
  | call o => cases p <;> simp [tstep] at hs
  | sync | throw => simp [isOut] at hc
  | swap j => cases p <;> simp [tstep] at hs; exact hb.elim
  | go j =>
    cases p <;> try exact hb.elim
    · simp only [tstep, tau, Option.bind_eq_some_iff, Option.some.injEq, Prod.mk.injEq] at hs
      obtain ⟨_, _, _, rfl, _⟩ := hs
      trivial
    · simp only [tstep, tau, Option.bind_eq_some_iff, Option.some.injEq, Prod.mk.injEq] at hs
      obtain ⟨_, _, _, rfl, _⟩ := hs
      exact bulkPlan_bulk ..
    · simp only [tstep, tau] at hs
      split at hs <;> simp only [Option.some.injEq, Prod.mk.injEq] at hs <;> obtain ⟨_, rfl, _⟩ := hs
      · trivial
      · split
        · exact bulkNext_bulk ..
        · trivial
    · simp only [tstep, tau, orErr] at hs
      split at hs <;> simp only [Option.some.injEq, Prod.mk.injEq] at hs <;> obtain ⟨_, rfl, _⟩ := hs
      · trivial
      · exact bulkNext_bulk ..
    · simp only [tstep, tau, Option.some.injEq, Prod.mk.injEq] at hs
      obtain ⟨_, rfl, _⟩ := hs
      simp [Bulk]
    · simp [tstep] at hs
    · simp [tstep] at hs

theorem bulk_moves {okm : St α → PC α → Choice α → Prop} {s s' : St α} {p' : PC α} {a b : Nat} {c : Bool}
    (hm : Moves (mach α cfg) okm (fun _ => isOut true) 1 s .idle h s' p' a b) (hb : b = 0) :
    (h = [] → p' = .idle) ∧ (h = [.inv 1 (.popMany c none)] → Bulk p') := by
  induction hm with
  | stay => exact ⟨fun _ => rfl, by simp⟩
  | @step h s₁ p₁ a b ch s' p' e _ _ hs ih =>
    obtain ⟨rfl, hb'⟩ : b = 0 ∧ (if isOut true ch = true then 1 else 0) = 0 := by omega
    have hc : isOut true ch = false := by
      cases hc : isOut true ch
      · rfl
      · simp [hc] at hb'
    obtain ⟨h1, h2⟩ := ih rfl
    cases e with
    | none =>
      refine ⟨fun hh => ?_, fun hh => ?_⟩
      · cases h1 (by simpa using hh)
        cases ch <;> simp [mach, tstep] at hs
        simp [isOut] at hc
      · exact Bulk.step (h2 (by simpa using hh)) hc hs
    | some ev =>
      refine ⟨by simp, fun hh => ?_⟩
      cases h with
      | cons x l => simp at hh
      | nil =>
        simp only [Option.toList, List.nil_append, List.cons.injEq, and_true] at hh
        subst hh
        cases h1 rfl
        cases ch with
        | call o =>
          simp only [mach, tstep, Option.map_eq_some_iff, Prod.mk.injEq, Option.some.injEq, Event.inv.injEq, true_and] at hs
          obtain ⟨_, h3, _, rfl, rfl⟩ := hs
          simp only [start, Option.some.injEq] at h3
          subst h3
          trivial
        | sync => simp [isOut] at hc
        | go | swap | throw => simp [mach, tstep] at hs

/-- What a call of `consume_all` with the functor `consume_noop` does while no other call is in progress, all threads being synchronised. -/
structure Drained (cfg : Cfg) (sc : Bool) (N : Nat) (C : TConf α) (s : St α) (r : Ret α) : Prop where
  steps : MSteps (program α cfg sc).mach (Program.ok okCall) ⟨C.s.joined, fun _ => .idle⟩ [.inv 1 (.popMany false none), .res 1 r] ⟨s, fun _ => .idle⟩
  res : r = .poppedMany (C.s.acc.drop C.s.rel)
  acc : s.acc = C.s.acc
  rel : s.rel = s.acc.length
  out : s.out = C.s.out ++ C.s.acc.drop C.s.rel
  dead : cfg.trivial = false → s.ctor = s.dtor ∧ ∀ i, i ≤ N → s.cell i = none

theorem drained (hN : Holds cfg N) (hx : TextExec cfg sc h ⟨C.s, fun _ => .idle⟩) {s : St α} {r : Ret α} (hr : r ≠ .threw)
    (hs : MSteps (program α cfg sc).mach (Program.ok okCall) ⟨C.s.joined, fun _ => .idle⟩ [.inv 1 (.popMany false none), .res 1 r] ⟨s, fun _ => .idle⟩) :
    Drained cfg sc N C s r := by
  have hj : TextExec cfg sc h ⟨C.s.joined, fun _ => .idle⟩ := joined_exec hx
  obtain ⟨_, D₀, -, -, hD₀, hS₀⟩ := spsc_text_refines hN hx
  obtain ⟨_, _, _, hi, -⟩ := hN.inv hD₀
  rw [hS₀.s] at hi
  obtain ⟨D₁, D₂, h1, h2, h3, h4⟩ := spsc_text_refines_part hN hj hs
  have hp := spsc_text_consumer_call hN hj (o := .popMany false none) (r := r) rfl hs (by simp [ofThread, Event.tid])
  have hk : D₁.s.vc.w = D₁.s.wlast := by
    rw [h2.s]
    show max C.s.vp.w C.s.vc.w = C.s.wlast
    have := hi.vpw
    have := hi.vcw
    dsimp only at *
    omega
  obtain ⟨k1, k2, k3, -, -, k4⟩ := spsc_drain hN h1 (h2.idle rfl) (h2.idle rfl) hk h3 (by simp [ofThread, Event.tid]) (c := false) (r := r) (by simp [ofThread, Event.tid]) hr
  rw [h2.s] at k1 k2
  rw [h4.s] at k2 k3 k4
  subst k1
  obtain ⟨_, -, -, -, -, -, hp⟩ := hp
  exact ⟨hs, rfl, k2, k3, hp, k4⟩

/-- Every execution of `consume_all( consume_noop )`, alone. -/
theorem drain_ends (hN : Holds cfg N) (hx : TextExec cfg sc h ⟨C.s, fun _ => .idle⟩) (f : Nat) :
    Ends 1 calm (fun _ => false) (fun s l k => k = [] ∧ Drained cfg sc N C s l.result) (62 * (2 * N + 5)) f C.s.joined Loc.init
      [.stm (call (takeMany cfg sc false false))] := by
  have hj : TextExec cfg sc h ⟨C.s.joined, fun _ => .idle⟩ := joined_exec hx
  let P₀ : Program (St α) (Loc α) (Choice α) (Op α) (Ret α) := { program α cfg sc with env := fun _ _ _ => none }
  refine Ends.of_moves (P := P₀) (Post := Drained cfg sc N C) fun s' q' a b hm => ?_
  obtain ⟨g1, g2, g3⟩ := Moves.embed (P := program α cfg sc) (P₀ := P₀) (al := calm) (okc := okCall) (sp := isOut true) rfl (fun _ _ _ => rfl) (fun c h => h) hm rfl
  have c0 : MSteps ((program α cfg sc).mach.count (stepsOfThread 1)) (fun s => Program.ok okCall s.1) ⟨(C.s.joined, 0), fun _ => .idle⟩ [.inv 1 (.popMany false none)]
      ⟨(C.s.joined, 1), upd (fun _ => .idle) 1 (.run Loc.init [.stm (call (takeMany cfg sc false false))])⟩ :=
    MSteps.step (m := (program α cfg sc).mach.count (stepsOfThread 1)) (ok := fun s => Program.ok okCall s.1) (h := []) (t := 1) (e := some (.inv 1 (.popMany false none)))
      (ch := TChoice.call (.popMany false none)) (.refl _) rfl ⟨trivial, by simp⟩
  have c1 := g3 (upd_self ..) c0
  rw [upd_upd] at c1
  have h1 := (spsc_text_wait_free hN hj (t := 1) (by omega) rfl c1 (o := .popMany false none) (r := .threw) (by simp [ofThread, Event.tid])).1
  have c2 := c1.uncount
  have h2 : TextExec cfg sc (h ++ [.inv 1 (.popMany false none)]) ⟨s', upd (fun _ => .idle) 1 q'⟩ := by
    obtain ⟨s₀, i1, i2⟩ := hj
    exact ⟨s₀, i1, i2.trans c2⟩
  refine ⟨by simp only [maxSteps, atMost] at h1; omega, fun hq => spsc_text_no_undefined_behaviour hN h2 1 (by simpa using hq), fun r hr => ?_, fun l' k' hq => ?_⟩
  · subst hr
    have c3 := c2.step (t := 1) (ch := .tau) (s' := s') (p' := .idle) (e := some (.res 1 r)) (by simp [Program.mach]) (by simp [Program.ok])
    rw [show upd (upd (fun _ : Nat => (TPC.idle : TPC (St α) (Loc α) (Choice α) (Ret α))) 1 (.ret r)) 1 .idle = fun _ => .idle by rw [upd_upd]; exact idle_upd _ rfl] at c3
    refine drained hN hx ?_ c3
    -- it has not thrown
    obtain ⟨_, D, -, -, hD, hS⟩ := spsc_text_refines hN hj
    have hs := hS.s
    have hid := hS.idle (t := 1) rfl
    have m0 := (Moves.stay (m := (program α cfg sc).mach) (okm := Program.ok okCall) (sw := spurious (isOut true)) (t := 1) (s := C.s.joined) (p := .idle)).step
      (ch := TChoice.call (Op.popMany false none : Op α)) (s' := C.s.joined) (p' := .run Loc.init [.stm (call (takeMany cfg sc false false))]) (e := some (.inv 1 (.popMany false none)))
      (show okCall C.s.joined (.popMany false none) from ⟨trivial, by simp⟩) rfl
    have m1 := m0.trans g2
    obtain ⟨p', _, _, i1, i2⟩ := (refines_out (cfg := cfg) (sc := sc) (α := α) true).moves (p := .idle) (j := 0) (fun H s₁ p₁ a b hm => by
      have := hm.steps (D := D) hs hid (.refl _)
      have := text_inv hN (hD.trans (steps_safe this)) 1
      simpa using this) (show PCRel _ _ _ 0 .idle _ from rfl) m1 (by simp [spurious])
    have hb := (bulk_moves (c := false) i2 rfl).2 rfl
    have hp : p' = .ret r := i1
    subst hp
    exact hb
  · subst hq
    obtain ⟨ch, y, i1, i2, i3⟩ := spsc_text_never_blocks hN h2 (t := 1) (by simp)
    simp only [upd_self] at i2 i3
    refine ⟨ch, y, ?_, ⟨?_, ?_⟩, ?_⟩
    · rcases i1 with rfl | ⟨j, rfl⟩
      · exact .inl rfl
      · exact .inr ⟨_, rfl⟩
    · rcases i1 with rfl | ⟨j, rfl⟩
      · simp only [Program.ok]
      · revert i2
        simp only [Program.ok]
        split <;> simp_all
    · rintro c rfl
      rcases i1 with h | ⟨j, h⟩ <;> cases h
      rfl
    · rw [← Program.step_congr (P := program α cfg sc) (P₀ := P₀) rfl (by simp) (by rcases i1 with rfl | ⟨j, rfl⟩ <;> simp)]
      exact i3

end Code

end Verif.Spsc
