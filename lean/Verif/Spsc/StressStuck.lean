import Verif.StressStuck
import Verif.Spsc.Stress

/-!
# The stress tests of `spsc_queue`: no deadlock (C71)

No further code of /repo is modelled here.
-/

namespace Verif.Spsc.Code
open Lin Text Stress User
open Verif.Example (quiet)

variable {cfg : Cfg} {sc : Bool} {N : Nat} {h : History (Op Nat) (Ret Nat)} {x : Plan} {C : SConf}

theorem stress_ended (hx : StressRuns cfg sc x h C) (u : Nat) : C.pc u = .at .ended → C.s.2.ended u = true := by
  induction hx with
  | refl =>
    intro h
    simp only [PC.at.injEq] at h
    unfold Stress.start at h
    split at h <;> cases h
  | @step h C t ch σ' p' e hx hs hok ih =>
    have hs' := User.trans_of_step hs
    obtain ⟨s₂, g₂⟩ := σ'
    simp only at hs'
    intro hu
    by_cases hut : u = t
    · subst hut
      simp only [upd_self] at hu
      subst hu
      have hcall := fun k p => User.Runs.calling hx (u := u) (k := k) (p := p)
      generalize C.pc u = p at hs' hcall
      generalize hq : (PC.at Stress.At.ended : SPC) = q at hs'
      cases hs' with
      | call => cases hq
      | inside => cases hq
      | @act k b g' l k' s' h1 h2 h3 =>
        cases hq
        revert h2
        simp only [script, scriptWith]
        intro h2
        (repeat' split at h2) <;> simp at h2
        obtain ⟨rfl, -⟩ := h2
        simp
      | @finish k p ch s' p' u' r h1 =>
        simp only [PC.at.injEq] at hq
        have := hcall _ _ rfl
        cases k <;> simp only [script, scriptWith] at hq this <;> first
          | exact absurd rfl this
          | ((repeat' split at hq) <;> cases hq)
    · simp only [upd_ne _ _ _ hut] at hu
      have := ih hu
      generalize C.pc t = p at hs'
      cases hs' with
      | call | inside | finish => exact this
      | @act k b g' l k' s' h1 h2 h3 =>
        revert h2
        simp only [script, scriptWith]
        intro h2
        (repeat' split at h2) <;> simp at h2
        all_goals (obtain ⟨rfl, -⟩ := h2; simp [this, hut])

/-- **C71 (the stress tests of `spsc_queue` never get stuck).** Until the checks have passed, or an exception ends the program, some thread can make a step. -/
theorem spsc_stress_never_stuck (hN : Holds cfg N) (h0 : 0 < x.size) (hx : StressRuns cfg sc x h C)
    (ht : ∀ i p, C.pc 0 ≠ .at (.threw i p)) (ht' : C.pc 1 ≠ .at .rthrew) (hp : C.pc 2 ≠ .at .passed) :
    ∃ u ≤ 2, (User.mach (program Nat cfg sc).mach (script x) .absent).CanStep C u := by
  have hi := (stress_all hN h0 hx).1
  have htd := User.Runs.tidy (sr := id) stress_plays stress_reads hx
  have hin : ∀ t a p, C.pc t = .call a p → (User.mach (program Nat cfg sc).mach (script x) .absent).CanStep C t := by
    intro t a p hpc
    refine able_inside hpc ?_
    obtain ⟨ch, y, -, -, h1⟩ := spsc_text_never_blocks hN (stress_exec hx) (t := t)
      (by simp only [User.baseOf, hpc, User.pcOf]; exact (htd.busy t a p hpc).1)
    simp only [User.baseOf, hpc, User.pcOf] at h1
    exact ⟨ch, y, h1⟩
  have hn : ∀ t, ∃ s', quiet (program Nat cfg sc).mach t C.s.1 [] = some s' := fun _ => ⟨_, rfl⟩
  by_cases hw : C.pc 0 = .at .ended
  · by_cases hr : C.pc 1 = .at .ended
    · refine ⟨2, Nat.le_refl _, ?_⟩
      have e0 := stress_ended hx 0 hw
      have e1 := stress_ended hx 1 hr
      obtain ⟨k, hk, hm⟩ := hi.main
      cases k with
      | joinWriter => exact able_act (b := true) hk rfl (by simp only [script, scriptWith, e0, if_true]; rfl) (hn 2)
      | joinReader => exact able_act (b := true) hk rfl (by simp only [script, scriptWith, e1, if_true]; rfl) (hn 2)
      | checkReceived | checkCnt | checkSet => exact able_act (b := true) hk rfl rfl (hn 2)
      | passed => exact absurd hk hp
      | _ => exact hm.elim
    · refine ⟨1, by omega, ?_⟩
      have hR := hi.reads
      cases hq : C.pc 1 with
      | call a p => exact hin 1 a p hq
      | «at» k =>
        rw [hq] at hR hr ht'
        cases k with
        | pop l =>
          refine able_call hq rfl ?_
          cases hb : x.buffer <;> simp only [Plan.pop, hb] <;> exact ⟨_, rfl⟩
        | take | dec => exact able_act (b := true) hq rfl rfl (hn 1)
        | erase l vs =>
          cases vs with
          | nil => exact able_act (b := true) hq rfl rfl (hn 1)
          | cons v vs =>
            by_cases hv : v ∈ C.s.2.working_set
            · exact able_act (b := true) hq rfl (by simp only [script, scriptWith, hv, if_true]; rfl) (hn 1)
            · exact able_act (b := true) hq rfl (by simp only [script, scriptWith, hv, if_false]; rfl) (hn 1)
        | test => exact able_act (b := false) hq rfl rfl (hn 1)
        | leave => exact able_act (b := true) hq rfl rfl (hn 1)
        | ended => exact absurd rfl hr
        | rthrew => exact absurd rfl ht'
        | _ => exact hR.elim
  · refine ⟨0, by omega, ?_⟩
    have hW := hi.writes
    cases hq : C.pc 0 with
    | call a p => exact hin 0 a p hq
    | «at» k =>
      rw [hq] at hW hw ht
      cases k with
      | push i buf p =>
        refine able_call hq rfl ?_
        cases hb : x.buffer <;> simp only [Plan.push, hb] <;> exact ⟨_, rfl⟩
      | forTest | insert | counted | report | leave => exact able_act (b := true) hq rfl rfl (hn 0)
      | fill i buf =>
        by_cases hl : buf.length = x.size
        · exact able_act (b := true) hq rfl (by simp only [script, scriptWith, hl, if_true]; rfl) (hn 0)
        · exact able_act (b := true) hq rfl (by simp only [script, scriptWith, hl, if_false]; rfl) (hn 0)
      | ended => exact absurd rfl hw
      | threw i p => exact absurd rfl (ht i p)
      | _ => exact hW.elim

end Verif.Spsc.Code
