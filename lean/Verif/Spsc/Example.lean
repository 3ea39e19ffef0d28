import Verif.ExampleEnd
import Verif.Spsc.TextProps

/-!
# examples/spsc_queue.cpp on the program text of `spsc_queue`

`iterations` (spsc_queue.cpp:19) and the capacity (:17) are parameters.
-/

namespace Verif.Spsc
open Lin

variable {α : Type} {cfg : Cfg} {N : Nat} {h h' : History (Op α) (Ret α)}

/-- While the producer makes no call, nothing is added, and the consumer does not forget what it has seen. -/
theorem Inv.idle_producer {D₁ D₂ : Conf α} (hi : Inv cfg D₁) (h0 : D₁.pc 0 = .idle) (hs : MSteps (mach α cfg) okSafe D₁ h' D₂)
    (he : ofThread 0 h' = []) :
    Inv cfg D₂ ∧ D₂.pc 0 = .idle ∧ D₂.s.W = D₁.s.W ∧ D₂.s.wlast = D₁.s.wlast ∧ D₂.s.acc = D₁.s.acc ∧ D₁.s.vc.w ≤ D₂.s.vc.w := by
  induction hs with
  | refl => exact ⟨hi, h0, rfl, rfl, rfl, Nat.le_refl _⟩
  | @step h C t ch s' p' e hx hs hok ih =>
    rw [ofThread_append, List.append_eq_nil_iff] at he
    obtain ⟨hi', h1, h2, h3, h4, h5⟩ := ih he.1
    have hi2 : Inv cfg ⟨s', upd C.pc t p'⟩ := hi'.reach (.step (.refl _) hs hok)
    rcases hi'.tid hs with rfl | rfl
    · have hs0 := hs
      simp only [mach] at hs
      rw [h1] at hs
      cases ch with
      | sync =>
        obtain ⟨rfl, rfl, rfl⟩ := tau_inv hs
        exact ⟨hi2, by simp, h2, h3, h4, h5⟩
      | call o =>
        simp only [tstep, Option.map_eq_some_iff] at hs
        obtain ⟨y, _, hs⟩ := hs
        cases hs
        have := he.2
        simp [ofThread, Event.tid] at this
      | go _ | throw | swap _ => cases hs
    · have hev := hi'.ev1 hs
      refine ⟨hi2, ?_, hev.W.trans h2, hev.wlast.trans h3, hev.acc.trans h4, Nat.le_trans h5 hev.vcw⟩
      simp only
      rw [upd_ne _ _ _ (by decide)]
      exact h1

end Verif.Spsc

namespace Verif.Spsc.Code
open Lin Text Example

variable {cfg : Cfg} {sc : Bool} {N k : Nat} {h h' : History (Op Nat) (Ret Nat)}

theorem text_idle_producer (hN : Holds cfg N) {C₁ C₂ : TConf Nat} (hx : TextExec cfg sc h C₁) (h0 : C₁.pc 0 = .idle)
    (hs : MSteps (program Nat cfg sc).mach (Program.ok okCall) C₁ h' C₂) (he : ofThread 0 h' = []) :
    C₂.s.W = C₁.s.W ∧ C₂.s.wlast = C₁.s.wlast ∧ C₂.s.acc = C₁.s.acc ∧ C₁.s.vc.w ≤ C₂.s.vc.w ∧ C₂.s.vc.w ≤ C₂.s.wlast ∧
      (C₂.s.W C₂.s.wlast).cnt = C₂.s.acc.length := by
  obtain ⟨D₁, D₂, h1, h2, h3, h4⟩ := spsc_text_refines_part hN hx hs
  obtain ⟨h5, -, h6, h7, h8, h9⟩ := (hN.inv h1).idle_producer (h2.idle h0) h3 he
  obtain ⟨_, _, _, h10, -⟩ := h5
  rw [← h2.s, ← h4.s]
  exact ⟨h6, h7, h8, h9, h10.vcw, h10.wcnt⟩

/-- The result of `push`. -/
def pushAnswer : Ret Nat → Option Bool
  | .pushed ok => some ok
  | _ => none

/-- The result of `pop`. -/
def popAnswer : Ret Nat → Option Bool
  | .popped v => some v.isSome
  | _ => none

/-- How spsc_queue.cpp uses the queue: one producer, `spsc_queue.push( value )` (:25); one consumer, `spsc_queue.pop( value )` (:36, :40). The consumer that loads
`true` from `done` (:35) has synchronised with `main`, which has joined the producer (:55-56). -/
def exampleSetup (iterations : Nat) : Setup (TChoice (Spsc.Choice Nat) (Op Nat)) (Ret Nat) where
  producers := 1
  consumers := 1
  iterations := iterations
  push v := .call (.push v)
  pop := .call .pop
  pushed := pushAnswer
  popped := popAnswer
  see := [.env .sync]

abbrev EConf := MConf (St Nat × Vars) (Example.PC (TPC (St Nat) (Loc Nat) (Spsc.Choice Nat) (Ret Nat)))

/-- Executions of spsc_queue.cpp, under release/acquire memory (`sc = false`) or with loads that return the latest store (`sc = true`). -/
abbrev ExampleRuns (cfg : Cfg) (sc : Bool) (iterations : Nat) (h : History (Op Nat) (Ret Nat)) (C : EConf) : Prop :=
  Runs (program Nat cfg sc).mach (exampleSetup iterations) (Program.ok okCall) St.initial h C

theorem example_plays : Plays (program Nat cfg sc).mach (exampleSetup k) (Program.ok okCall) :=
  text_plays _ (push := fun v => .push v) (pop := .pop) (fun _ => rfl) rfl (by simp [Setup.syncs, exampleSetup])

theorem example_reads : Reads (program Nat cfg sc).mach (exampleSetup k) id id (fun v => .push v) .pop pushAnswer popAnswer
    (fun o r => accepts (o, r)) (fun o r => delivers (o, r)) where
  pushes t s v s' p' e h := by
    simp only [exampleSetup, Program.mach, Option.map_eq_some_iff] at h
    obtain ⟨y, _, h⟩ := h
    cases h
    exact ⟨_, rfl, rfl⟩
  pops t s s' p' e h := by
    simp only [exampleSetup, Program.mach, Option.map_eq_some_iff] at h
    obtain ⟨y, _, h⟩ := h
    cases h
    exact ⟨_, rfl, rfl⟩
  pushed _ := rfl
  popped _ := rfl
  put_push v r := by
    cases r with
    | pushed ok => cases ok <;> simp [accepts, pushAnswer]
    | _ => simp [accepts, pushAnswer]
  put_pop r := by cases r <;> rfl
  get_push v r := by cases r <;> rfl
  get_pop r := by
    cases r with
    | popped x => cases x <;> simp [delivers, popAnswer]
    | _ => simp [delivers, popAnswer]
  ne v := by simp

/-- The call a thread is in. -/
def inCall {P : Type} : Example.PC P → Option (Op Nat)
  | .call (.push _ v) _ => some (.push v)
  | .call _ _ => some .pop
  | _ => none

/-- The consumer is past the test of `done`. -/
def Past {P : Type} (p : Example.PC P) : Prop := p.here = .pop true ∨ p.here = .counted true ∨ p.here = .leave ∨ p.here = .ended

/-- What the threads have done. -/
structure Played (cfg : Cfg) (sc : Bool) (h : History (Op Nat) (Ret Nat)) (C : EConf) : Prop where
  produced : ∃ cs, Did 0 h cs (inCall (C.pc 0)) ∧
    (C.pc 0 ≠ .at .terminated → cs.flatMap accepts ++ held (C.pc 0) = (List.range C.s.2.producer_count).map (· + 1))
  consumed : ∃ cs, Did 1 h cs (inCall (C.pc 1)) ∧ (cs.flatMap delivers).length = C.s.2.consumer_count + owed (C.pc 1)
  knows : Past (C.pc 1) → C.s.1.vc.w = C.s.1.wlast
  last : ∀ p, C.pc 1 = .call (.pop true) p → ∃ h₁ C₁ h₂, TextExec cfg sc h₁ C₁ ∧ C₁.pc 0 = .idle ∧ C₁.pc 1 = .idle ∧ C₁.s.vc.w = C₁.s.wlast ∧
    MSteps (program Nat cfg sc).mach (Program.ok okCall) C₁ h₂ (Mach.baseOf (program Nat cfg sc).mach C) ∧ ofThread 0 h₂ = [] ∧
    ofThread 1 h₂ = [.inv 1 .pop]
  empty : C.pc 1 = .at .leave ∨ C.pc 1 = .at .ended → C.s.1.acc.length = C.s.1.rel

variable {C : EConf}

abbrev EInv (cfg : Cfg) (sc : Bool) (k : Nat) (h : History (Op Nat) (Ret Nat)) (C : EConf) : Prop :=
  Example.Inv (program Nat cfg sc).mach (exampleSetup k) (fun v => .push v) .pop popAnswer (fun o r => accepts (o, r)) (fun o r => delivers (o, r)) h C

theorem example_inv (hx : ExampleRuns cfg sc k h C) : EInv cfg sc k h C := by
  have := Runs.inv example_plays example_reads hx
  rwa [map_strip_id] at this

theorem example_exec (hx : ExampleRuns cfg sc k h C) : TextExec cfg sc h (Mach.baseOf (program Nat cfg sc).mach C) :=
  ⟨_, .fresh, Runs.base example_plays hx⟩

theorem past_done (hi : EInv cfg sc k h C) (hp : Past (C.pc 1)) : C.s.2.done = true := by
  apply hi.last 1
  rcases hp with h | h | h | h <;> simp [h, exampleSetup]

/-- Steps of the producer. -/
theorem Played.producer (hi : EInv cfg sc k h C) (hf : Played cfg sc h C) {ch σ' p' e}
    (hs : (Example.mach (program Nat cfg sc).mach (exampleSetup k)).step 0 C.s (C.pc 0) ch = some (σ', p', e)) :
    Played cfg sc (h ++ e.toList) ⟨σ', upd C.pc 0 p'⟩ := by
  have hs' := trans_of_step hs
  have hr := hi.role 0
  obtain ⟨cs, h1, h2⟩ := hf.produced
  obtain ⟨cs', h3, h4⟩ := hf.consumed
  have hp1 : ∀ q, (upd C.pc 0 q) 1 = C.pc 1 := fun q => upd_ne _ _ _ (by decide)
  generalize hp : C.pc 0 = p at hs' hr h1 h2
  have hnot : ¬ p = .at .ended → ¬ Past (C.pc 1) := by
    intro hne hpast
    have := hi.producers_ended (past_done hi hpast) (u := 0) (by simp [exampleSetup])
    exact hne (hp.symm.trans this)
  have hno : ¬ Past (C.pc 1) := by
    apply hnot
    rintro rfl
    obtain ⟨s₂, g₂⟩ := σ'
    cases hs'
  have hdid : ∀ cs o, Did 1 h cs o → (∀ ev, e = some ev → ev.tid = 0) → Did 1 (h ++ e.toList) cs o := by
    intro cs o hd he
    cases e with
    | none => simpa using hd
    | some ev => exact hd.other (by rw [he ev rfl]; decide)
  obtain ⟨s₂, g₂⟩ := σ'
  simp only at hs'
  have hmk : ∀ cs'', Did 0 (h ++ e.toList) cs'' (inCall p') → (p' ≠ .at .terminated → cs''.flatMap accepts ++ held p' = (List.range g₂.producer_count).map (· + 1)) →
      g₂.consumer_count = C.s.2.consumer_count → (∀ ev, e = some ev → ev.tid = 0) → Played cfg sc (h ++ e.toList) ⟨(s₂, g₂), upd C.pc 0 p'⟩ := by
    intro cs'' a1 a2 a3 a4
    refine ⟨⟨cs'', by simpa using a1, by simpa using a2⟩, ⟨cs', ?_, ?_⟩, ?_, ?_, ?_⟩
    · simp only [hp1]; exact hdid _ _ h3 a4
    · simp only [hp1]; rw [h4, a3]
    · simp only [hp1]; exact fun h => absurd h hno
    · simp only [hp1]; intro p hp; exact absurd (.inl (by rw [hp]; rfl)) hno
    · simp only [hp1]; intro hp; exact absurd (by rcases hp with hp | hp <;> rw [hp] <;> simp [Past, PC.here]) hno
  have hc : (exampleSetup k).producers ≤ 0 → False := fun h => by simp [exampleSetup] at h
  cases hs' with
  | exit => exact hmk cs (by rw [Option.toList_none, List.append_nil]; exact h1) (fun _ => h2 (by simp)) rfl nofun
  | more => exact hmk cs (by rw [Option.toList_none, List.append_nil]; exact h1) (fun _ => h2 (by simp)) rfl nofun
  | count =>
    refine hmk cs (by rw [Option.toList_none, List.append_nil]; exact h1) (fun _ => ?_) rfl nofun
    have := h2 (by simp)
    simp only [held, List.append_nil] at this ⊢
    rw [this, List.range_succ, List.map_append]; rfl
  | push h' =>
    simp only [exampleSetup, Program.mach, Option.map_eq_some_iff] at h'
    obtain ⟨y, _, h'⟩ := h'
    cases h'
    exact hmk cs (h1.inv _) (fun _ => h2 (by simp)) rfl (by rintro _ ⟨⟩; rfl)
  | see | test | pop | counted | leave => exact (hc hr.1).elim
  | join | publish | joined => simp [Role, exampleSetup, Setup.main] at hr
  | @inside a p ch s' p' e h' hn =>
    rcases (example_plays (k := k)).step _ _ _ _ _ _ _ (hi.busy 0 _ _ hp).1 h' with ⟨rfl, _⟩ | ⟨r, rfl, _⟩
    · match a, hr with
      | .push i v, _ => exact hmk cs (by rw [Option.toList_none, List.append_nil]; exact h1) (fun _ => h2 (by simp)) rfl nofun
      | .pop _, h' => exact (hc h'.1).elim
    · exact absurd rfl (hn _ _)
  | @finish a p ch s' p' u r h' =>
    have hu : u = 0 := by
      rcases (example_plays (k := k)).step _ _ _ _ _ _ _ (hi.busy 0 _ _ hp).1 h' with ⟨h, _⟩ | ⟨r, h, _⟩
      · cases h
      · cases h; rfl
    subst hu
    match a, hr with
    | .push i v, _ =>
      refine hmk (cs ++ [(.push v, r)]) ?_ ?_ rfl (by rintro _ ⟨⟩; rfl)
      · have : inCall (.at (after (.push i v) ((exampleSetup k).result (.push i v) r)) : Example.PC (TPC (St Nat) (Loc Nat) (Spsc.Choice Nat) (Ret Nat))) = none := rfl
        rw [this]
        exact h1.res r
      · intro hnt
        have h5 := h2 (by simp)
        simp only [List.flatMap_append, List.flatMap_singleton]
        cases r with
        | pushed ok =>
          cases ok with
          | true => simpa [accepts, after, Setup.result, exampleSetup, pushAnswer, held] using h5
          | false => simpa [accepts, after, Setup.result, exampleSetup, pushAnswer, held] using h5
        | _ => exact absurd rfl hnt
    | .pop _, h' => exact (hc h'.1).elim

/-- Steps of `main`. -/
theorem Played.main (hi : EInv cfg sc k h C) (hf : Played cfg sc h C) {t ch σ' p' e} (ht : 2 ≤ t)
    (hs : (Example.mach (program Nat cfg sc).mach (exampleSetup k)).step t C.s (C.pc t) ch = some (σ', p', e)) :
    Played cfg sc (h ++ e.toList) ⟨σ', upd C.pc t p'⟩ := by
  have hs' := trans_of_step hs
  have hr := hi.role t
  have hm : (exampleSetup k).main = 2 := rfl
  have hp0 : ∀ q, (upd C.pc t q) 0 = C.pc 0 := fun q => upd_ne _ _ _ (by omega)
  have hp1 : ∀ q, (upd C.pc t q) 1 = C.pc 1 := fun q => upd_ne _ _ _ (by omega)
  have hpp : (exampleSetup k).producers = 1 := rfl
  generalize hp : C.pc t = p at hs' hr
  obtain ⟨s₂, g₂⟩ := σ'
  simp only at hs'
  have hmk : ∀ q a, p = .at a → q ≠ .call a .idle → (∃ b, q = .at b) → g₂.producer_count = C.s.2.producer_count → g₂.consumer_count = C.s.2.consumer_count →
      s₂ = C.s.1 → Played cfg sc h ⟨(s₂, g₂), upd C.pc t q⟩ := by
    rintro q a hpa - ⟨b, rfl⟩ h1 h2 rfl
    have hbase : Mach.baseOf (program Nat cfg sc).mach ⟨(C.s.1, g₂), upd C.pc t (.at b)⟩ = Mach.baseOf (program Nat cfg sc).mach C := by
      rw [base_upd]
      simp only [Mach.baseOf, Mach.pcOf]
      congr 1
      funext u
      by_cases hu : u = t
      · subst hu; rw [upd_self, hp, hpa]
      · rw [upd_ne _ _ _ hu]
    refine ⟨?_, ?_, ?_, ?_, ?_⟩
    · simp only [hp0, h1]; exact hf.produced
    · simp only [hp1, h2]; exact hf.consumed
    · simp only [hp1]; exact hf.knows
    · simp only [hp1]; intro p hp
      rw [hbase]
      exact hf.last p hp
    · simp only [hp1]; exact hf.empty
  cases hs' with
  | join _ h' => cases h'; simpa using hmk _ _ rfl (by simp) ⟨_, rfl⟩ rfl rfl rfl
  | publish h' => cases h'; simpa using hmk _ _ rfl (by simp) ⟨_, rfl⟩ rfl rfl rfl
  | joined _ => simpa using hmk _ _ rfl (by simp) ⟨_, rfl⟩ rfl rfl rfl
  | exit | more | count | push => simp only [Role] at hr; omega
  | see | test | pop | counted | leave => simp only [Role] at hr; omega
  | @inside a | @finish a =>
    match a, hr with
    | .push _ _, h' => simp only [Role] at h'; omega
    | .pop _, h' => simp only [Role] at h'; omega

/-- Steps of the consumer. -/
theorem Played.consumer (hN : Holds cfg N) (hT : TextExec cfg sc h (Mach.baseOf (program Nat cfg sc).mach C)) (hi : EInv cfg sc k h C)
    (hf : Played cfg sc h C) {ch σ' p' e}
    (hs : (Example.mach (program Nat cfg sc).mach (exampleSetup k)).step 1 C.s (C.pc 1) ch = some (σ', p', e))
    (hok : okBy (program Nat cfg sc).mach (exampleSetup k) (Program.ok okCall) C.s (C.pc 1) ch) :
    Played cfg sc (h ++ e.toList) ⟨σ', upd C.pc 1 p'⟩ := by
  have hb := base_step example_plays (fun t a p hp => (hi.busy t a p hp).1) hs hok
  have hs' := trans_of_step hs
  have hr := hi.role 1
  have hm : (exampleSetup k).main = 2 := rfl
  have hpp : (exampleSetup k).producers = 1 := rfl
  have hp0 : ∀ q, (upd C.pc 1 q) 0 = C.pc 0 := fun q => upd_ne _ _ _ (by decide)
  obtain ⟨cs, h1, h2⟩ := hf.consumed
  obtain ⟨cs', h3, h4⟩ := hf.produced
  -- the producer has ended
  have hend : Past (C.pc 1) → C.pc 0 = .at .ended := fun h => hi.producers_ended (past_done hi h) (by simp [exampleSetup])
  have hidle : Past (C.pc 1) → (Mach.baseOf (program Nat cfg sc).mach C).pc 0 = .idle := fun h => by
    simp only [Mach.baseOf, hend h, Mach.pcOf]; rfl
  have hview : (∀ ev, e = some ev → ev.tid = 1) → Past (C.pc 1) → σ'.1.vc.w = σ'.1.wlast ∧ σ'.1.acc = C.s.1.acc := by
    intro he hpast
    have h5 : ofThread 0 e.toList = [] := by
      cases e with
      | none => rfl
      | some ev => exact ofThread_ne (by rw [he ev rfl]; decide)
    have h6 := text_idle_producer hN hT (hidle hpast) hb h5
    have h7 := hf.knows hpast
    simp only [Mach.baseOf] at h6
    exact ⟨by omega, h6.2.2.1⟩
  generalize hp : C.pc 1 = p at hs' hr h1 h2 hok
  obtain ⟨s₂, g₂⟩ := σ'
  simp only at hs' hview
  have hdid : ∀ cs o, Did 0 h cs o → (∀ ev, e = some ev → ev.tid = 1) → Did 0 (h ++ e.toList) cs o := by
    intro cs o hd he
    cases e with
    | none => simpa using hd
    | some ev => exact hd.other (by rw [he ev rfl]; decide)
  have hmk : ∀ cs'', Did 1 (h ++ e.toList) cs'' (inCall p') → (cs''.flatMap delivers).length = g₂.consumer_count + owed p' →
      g₂.producer_count = C.s.2.producer_count → (∀ ev, e = some ev → ev.tid = 1) →
      (Past p' → s₂.vc.w = s₂.wlast) →
      (∀ p, p' = .call (.pop true) p → ∃ h₁ C₁ h₂, TextExec cfg sc h₁ C₁ ∧ C₁.pc 0 = .idle ∧ C₁.pc 1 = .idle ∧ C₁.s.vc.w = C₁.s.wlast ∧
        MSteps (program Nat cfg sc).mach (Program.ok okCall) C₁ h₂ (Mach.baseOf (program Nat cfg sc).mach ⟨(s₂, g₂), upd C.pc 1 p'⟩) ∧ ofThread 0 h₂ = [] ∧
        ofThread 1 h₂ = [.inv 1 .pop]) →
      (p' = .at .leave ∨ p' = .at .ended → s₂.acc.length = s₂.rel) →
      Played cfg sc (h ++ e.toList) ⟨(s₂, g₂), upd C.pc 1 p'⟩ := by
    intro cs'' a1 a2 a3 a4 a5 a6 a7
    refine ⟨⟨cs', ?_, ?_⟩, ⟨cs'', ?_, ?_⟩, ?_, ?_, ?_⟩
    · simp only [hp0]; exact hdid _ _ h3 a4
    · simp only [hp0]; rw [a3]; exact h4
    · simpa using a1
    · simpa using a2
    · simpa using a5
    · simpa using a6
    · simpa using a7
  cases hs' with
  | exit | more | count | push => simp only [Role] at hr; omega
  | join | publish | joined => simp only [Role] at hr; omega
  | see h5 h6 =>
    simp only [exampleSetup, quiet, Program.mach, program, Option.map_some, Option.some.injEq] at h6
    subst h6
    refine hmk cs (by rw [Option.toList_none, List.append_nil]; exact h1) h2 rfl nofun ?_ nofun (by simp)
    intro _
    obtain ⟨_, D, -, -, h7, h8⟩ := spsc_text_refines hN hT
    obtain ⟨_, _, _, h9, -⟩ := hN.inv h7
    rw [h8.s] at h9
    have h10 := h9.vpw
    have h11 := h9.vcw
    simp only [Mach.baseOf, View.join] at h10 h11 ⊢
    omega
  | test =>
    exact hmk cs (by rw [Option.toList_none, List.append_nil]; exact h1) h2 rfl nofun (by simp [Past, PC.here]) nofun (by simp)
  | @counted l =>
    refine hmk cs (by rw [Option.toList_none, List.append_nil]; exact h1) (by rw [h2]; simp only [owed]) rfl nofun ?_ nofun (by simp)
    intro hpast
    refine (hview nofun ?_).1
    rw [hp]
    simp only [Past, PC.here, At.pop.injEq, reduceCtorEq, or_false] at hpast
    subst hpast
    exact .inr (.inl rfl)
  | leave =>
    refine hmk cs (by rw [Option.toList_none, List.append_nil]; exact h1) h2 rfl nofun ?_ nofun ?_
    · intro _
      exact (hview nofun (by rw [hp]; exact .inr (.inr (.inl rfl)))).1
    · intro _; exact hf.empty (.inl hp)
  | @pop l s' p' e h' =>
    simp only [exampleSetup, Program.mach, Option.map_eq_some_iff] at h'
    obtain ⟨y, _, h'⟩ := h'
    cases h'
    have hev : ∀ ev, some (Event.inv 1 (Op.pop : Op Nat) : Event (Op Nat) (Ret Nat)) = some ev → ev.tid = 1 := by rintro _ ⟨⟩; rfl
    refine hmk cs (h1.inv _) h2 rfl hev ?_ ?_ (by simp)
    · intro hpast
      exact (hview hev (by rw [hp]; exact hpast)).1
    · rintro p hpt
      cases hpt
      have hpast : Past (C.pc 1) := by rw [hp]; exact .inl rfl
      refine ⟨h, _, _, hT, hidle hpast, ?_, hf.knows hpast, hb, ?_, ?_⟩
      · simp only [Mach.baseOf, hp, Mach.pcOf]; rfl
      · exact ofThread_ne (by decide)
      · exact ofThread_eq rfl
  | @inside a p ch s' p' e h' hn =>
    rcases (example_plays (k := k)).step _ _ _ _ _ _ _ (hi.busy 1 _ _ hp).1 h' with ⟨rfl, _⟩ | ⟨r, rfl, _⟩
    · match a, hr with
      | .push i v, h' => simp only [Role] at h'; omega
      | .pop l, _ =>
        refine hmk cs (by rw [Option.toList_none, List.append_nil]; exact h1) h2 rfl nofun ?_ ?_ (by simp)
        · intro hpast
          exact (hview nofun (by rw [hp]; exact hpast)).1
        · rintro q hq
          cases hq
          obtain ⟨h₁, C₁, h₂, b1, b2, b3, b4, b5, b6, b7⟩ := hf.last _ hp
          have := b5.trans hb
          rw [Option.toList_none, List.append_nil] at this
          exact ⟨h₁, C₁, h₂, b1, b2, b3, b4, this, b6, b7⟩
    · exact absurd rfl (hn _ _)
  | @finish a p ch s' p' u r h' =>
    have hu : u = 1 := by
      rcases (example_plays (k := k)).step _ _ _ _ _ _ _ (hi.busy 1 _ _ hp).1 h' with ⟨h, _⟩ | ⟨r, h, _⟩
      · cases h
      · cases h; rfl
    subst hu
    have hev : ∀ ev, some (Event.res 1 r : Event (Op Nat) (Ret Nat)) = some ev → ev.tid = 1 := by rintro _ ⟨⟩; rfl
    match a, hr with
    | .push i v, h' => simp only [Role] at h'; omega
    | .pop l, _ =>
      refine hmk (cs ++ [(.pop, r)]) ?_ ?_ rfl hev ?_ nofun ?_
      · have : inCall (.at (after (.pop l) ((exampleSetup k).result (.pop l) r)) : Example.PC (TPC (St Nat) (Loc Nat) (Spsc.Choice Nat) (Ret Nat))) = none := rfl
        rw [this]
        exact h1.res r
      · rw [List.flatMap_append, List.length_append, h2]
        cases r with
        | popped x =>
          cases x with
          | none => cases l <;> simp [delivers, after, Setup.result, exampleSetup, popAnswer, owed]
          | some v => simp [delivers, after, Setup.result, exampleSetup, popAnswer, owed]
        | _ => simp [delivers, after, Setup.result, exampleSetup, popAnswer, owed]
      · intro hpast
        refine (hview hev ?_).1
        rw [hp]
        cases l with
        | true => exact .inl rfl
        | false =>
          cases r with
          | popped x =>
            cases x <;> simp [Past, PC.here, after, Setup.result, exampleSetup, popAnswer] at hpast
          | _ => simp [Past, PC.here, after, Setup.result, exampleSetup, popAnswer] at hpast
      · intro hl
        have hlr : l = true ∧ r = .popped none := by
          cases r with
          | popped x =>
            cases x <;> cases l <;> simp [after, Setup.result, exampleSetup, popAnswer] at hl ⊢
          | _ => simp [after, Setup.result, exampleSetup, popAnswer] at hl
        obtain ⟨rfl, rfl⟩ := hlr
        obtain ⟨h₁, C₁, h₂, b1, b2, b3, b4, b5, b6, b7⟩ := hf.last _ hp
        have b8 := b5.trans hb
        have b9 : ofThread 0 (h₂ ++ [Event.res 1 (Ret.popped none : Ret Nat)]) = [] := by
          rw [ofThread_append, b6, ofThread_ne (by decide)]; rfl
        have b10 : ofThread 1 (h₂ ++ [Event.res 1 (Ret.popped none : Ret Nat)]) = [.inv 1 .pop, .res 1 (.popped none)] := by
          rw [ofThread_append, b7]; rfl
        have b11 := text_idle_producer hN b1 b2 b8 b9
        obtain ⟨⟨j, b12, b13, b14⟩, b15, -⟩ := spsc_text_consumer_call hN b1 b3 b8 b10
        have b16 : j = (Mach.baseOf (program Nat cfg sc).mach ⟨(s₂, C.s.2), upd C.pc 1 (.at (after (.pop true) ((exampleSetup k).result (.pop true) (.popped none))))⟩).s.wlast := by
          omega
        rw [b16, b11.2.2.2.2.2] at b14
        simp only [Mach.baseOf] at b14 b15
        omega

theorem example_played (hN : Holds cfg N) (hx : ExampleRuns cfg sc k h C) : Played cfg sc h C := by
  induction hx with
  | refl =>
    refine ⟨⟨[], .nil _, fun _ => rfl⟩, ⟨[], .nil _, rfl⟩, ?_, nofun, ?_⟩
    · simp [Example.initial, exampleSetup, Past, PC.here]
    · simp [Example.initial, exampleSetup]
  | @step h C t ch σ' p' e hx hs hok ih =>
    match t with
    | 0 => exact ih.producer (example_inv hx) hs
    | 1 => exact ih.consumer hN (example_exec hx) (example_inv hx) hs hok
    | t + 2 => exact ih.main (example_inv hx) (by omega) hs

/-- **C61 (spsc_queue.cpp: no undefined behaviour).** -/
theorem spsc_example_no_undefined_behaviour (hN : Holds cfg N) (hx : ExampleRuns cfg sc k h C) (t : Nat) (a : Example.At) :
    C.pc t ≠ .call a .err := by
  intro he
  have := spsc_text_no_undefined_behaviour hN (example_exec hx) t
  simp only [Mach.baseOf, Mach.pcOf, he] at this
  exact this rfl

/-- **C61 (spsc_queue.cpp).** When `main` prints, it prints that `k` objects were produced and as many consumed; the consumer has popped the numbers from 1 to `k`, in this
order; the queue is empty. -/
theorem spsc_example (hN : Holds cfg N) (hx : ExampleRuns cfg sc k h C) (hp : C.pc 2 = .at .print) :
    C.s.2.producer_count = k ∧ C.s.2.consumer_count = k ∧ delivered h = (List.range k).map (· + 1) ∧ C.s.1.acc.drop C.s.1.rel = [] := by
  have hi := example_inv hx
  have hf := example_played hN hx
  have hT := example_exec hx
  obtain ⟨h1, -, -, -⟩ := hi.at_print hp
  have h1 : C.s.2.producer_count = k := by simpa [exampleSetup] using h1
  have e0 : C.pc 0 = .at .ended := hi.over hp 0 (by simp [Setup.main, exampleSetup])
  have e1 : C.pc 1 = .at .ended := hi.over hp 1 (by simp [Setup.main, exampleSetup])
  obtain ⟨-, -, -, h5⟩ := spsc_text_fifo_quiescent hN hT (by simp only [Mach.baseOf, e0]; rfl) (by simp only [Mach.baseOf, e1]; rfl)
  have h6 := hf.empty (.inr e1)
  simp only [Mach.baseOf] at h5
  have h7 : C.s.1.acc.drop C.s.1.rel = [] := by rw [← h6]; simp
  rw [h7, List.append_nil] at h5
  obtain ⟨cs, h8, h9⟩ := hf.produced
  obtain ⟨cs', h10, h11⟩ := hf.consumed
  have h12 : delivered h = (List.range k).map (· + 1) := by
    rw [← h5, accepted, h8.callsOf, ← h1]
    have := h9 (by rw [e0]; simp)
    rw [e0] at this
    simpa [held] using this
  refine ⟨h1, ?_, h12, h7⟩
  have h13 : delivered h = cs'.flatMap delivers := by rw [delivered, h10.callsOf]
  rw [← h13, h12, e1] at h11
  simpa [owed] using h11.symm

end Verif.Spsc.Code
