import Verif.StressStuck
import Verif.Freelist.Progress
import Verif.Freelist.TesterProps

/-!
# The stress test of the freelists: no deadlock (C71)

No further code of /repo is modelled here.
-/

namespace Verif.Freelist.Tester
open Lin User Both
open Verif.Example (quiet)

variable {F Q : Rep} {size n : Nat} {x : Setup} {h : History (Op Unit ⊕ Queue.Op Nat) (Ret ⊕ Queue.Ret Nat)} {C : TesterConf F Q}

theorem tester_ended (hx : Runs F Q size n x h C) (u : Nat) : C.pc u = .at .ended → C.s.2.ended u = true := by
  induction hx with
  | refl =>
    intro h
    simp only [PC.at.injEq] at h
    unfold start at h
    (repeat' split at h) <;> cases h
  | @step h C t ch σ' p' e hx hs hok ih =>
    have hs' := User.trans_of_step hs
    obtain ⟨s₂, g₂⟩ := σ'
    simp only at hs'
    intro hu
    by_cases hut : u = t
    · subst hut
      simp only [upd_self] at hu
      subst hu
      have hcall := fun k p => User.Runs.calling hx (u := u) (k := k) (p := p)
      generalize C.pc u = p at hs' hcall
      generalize hq : User.PC.at At.ended = q at hs'
      cases hs' with
      | call => cases hq
      | inside => cases hq
      | @act k b g' l k' s' h1 h2 h3 =>
        cases hq
        simp only [script, Option.map_eq_some_iff, Prod.mk.injEq] at h2
        obtain ⟨⟨y, k'⟩, h2, rfl, -, rfl⟩ := h2
        unfold Setup.act at h2
        (repeat' split at h2) <;> simp at h2
        all_goals first
          | (subst h2; simp; done)
          | (obtain ⟨rfl, -⟩ := h2; simp; done)
          | (split at h2 <;> simp at h2; done)
      | @finish k p ch s' p' u' r h1 =>
        simp only [User.PC.at.injEq] at hq
        have := hcall _ _ rfl
        simp only [script] at hq this
        unfold next at hq
        (repeat' split at hq) <;> cases hq
    · simp only [upd_ne _ _ _ hut] at hu
      have := ih hu
      generalize C.pc t = p at hs'
      cases hs' with
      | call | inside | finish => exact this
      | @act k b g' l k' s' h1 h2 h3 =>
        simp only [script, Option.map_eq_some_iff, Prod.mk.injEq] at h2
        obtain ⟨⟨y, k''⟩, h2, rfl, -, rfl⟩ := h2
        unfold Setup.act at h2
        (repeat' split at h2) <;> simp at h2
        all_goals first
          | (obtain ⟨rfl, -⟩ := h2; simp [this, hut]; done)
          | (split at h2 <;> simp at h2 <;> obtain ⟨rfl, -⟩ := h2 <;> simp [this])

/-- A thread in a call of a container is in no other state there. -/
def Inside : User.PC At (Both.PC (Text.TPC S₁ L₁ Ch₁ R₁) (Text.TPC S₂ L₂ Ch₂ R₂)) → Prop
  | .call _ (.left p) => p ≠ .idle
  | .call _ (.right p) => p ≠ .idle
  | _ => True

theorem text_invoked {p : Text.Program S₁ L₁ Ch₁ O₁ R₁} {t : Nat} {s s' : S₁} {q' ch u o} (h : p.mach.step t s .idle ch = some (s', q', some (.inv u o))) :
    q' ≠ .idle := by
  rintro rfl
  cases ch <;> simp [Text.Program.mach] at h

theorem both_inside (p₁ : Text.Program S₁ L₁ Ch₁ O₁ R₁) (p₂ : Text.Program S₂ L₂ Ch₂ O₂ R₂) {t : Nat} {s s' : S₁ × S₂} {q q' ch e}
    (h : (both p₁.mach p₂.mach).step t s q ch = some (s', q', e)) (k : At) (hq : Inside (.call k q)) : Inside (.call k q') := by
  have h' := Both.trans_of_step h
  obtain ⟨a', b'⟩ := s'
  obtain ⟨a, b⟩ := s
  simp only at h'
  cases h' with
  | callL h1 => exact text_invoked h1
  | callR h1 => exact text_invoked h1
  | stepL h1 => exact ((Example.text_step _ hq h1).resolve_right (by simp)).2
  | stepR h1 => exact ((Example.text_step _ hq h1).resolve_right (by simp)).2
  | _ => trivial

theorem tester_inside (hx : Runs F Q size n x h C) (u : Nat) : Inside (C.pc u) := by
  induction hx with
  | refl => trivial
  | @step h C t ch σ' p' e hx hs hok ih =>
    have hs' := User.trans_of_step hs
    obtain ⟨s₂, g₂⟩ := σ'
    simp only at hs' ⊢
    by_cases hut : u = t
    · subst hut
      simp only [upd_self]
      generalize C.pc u = p at hs' ih
      cases hs' with
      | @call k b ch s' p' e h1 h2 => exact both_inside _ _ h2 k trivial
      | act => trivial
      | inside h1 => exact both_inside _ _ h1 _ ih
      | finish => trivial
    · simp only [upd_ne _ _ _ hut]
      exact ih

/-- **C71 (the stress test of the freelists never gets stuck).** Until `run` has joined all threads, or an exception ends the program, some thread can make a step,
as long as the allocators have memory. -/
theorem freelist_tester_never_stuck (hf : F.Faithful) (hq : Q.Faithful) (hs : size ≤ F.limit) (hn : n + 1 ≤ Q.limit) (hx : Runs F Q size n x h C)
    (hroom : F.fixed = true ∨ C.s.1.1.nalloc < F.limit) (hroom' : Q.fixed = true ∨ C.s.1.2.mem.nalloc < Q.limit)
    (ht : ∀ u < x.main, C.pc u ≠ .at .threw) (hp : C.pc x.main ≠ .at .finished) :
    ∃ u ≤ x.main, (User.mach (both (program F Unit).mach (Queue.Code.program Q Nat).mach) (script x .call .call) .absent).CanStep C u := by
  have hi := (tester_inv hf hq hs hn hx).1
  have htd := Runs.tidy (sr := id) (plays (text_ends _) (text_ends _) (text_makes _) (text_makes _)) (reads (text_makes _) (text_makes _)) hx
  have hin : ∀ t a p, C.pc t = .call a p →
      (User.mach (both (program F Unit).mach (Queue.Code.program Q Nat).mach) (script x .call .call) .absent).CanStep C t := by
    intro t a p hpc
    refine able_inside hpc ?_
    have hb := (htd.busy t a p hpc).1
    have hc := tester_inside hx t
    rw [hpc] at hc
    cases p with
    | idle => exact absurd rfl hb
    | left p =>
      obtain ⟨ch, ⟨s', p', e⟩, -, h1⟩ := freelist_enabled hf hs (tester_freelist_exec hx) hi.disc (t := t)
        (by simp only [confL, User.baseOf, hpc, User.pcOf, pcL]; exact hc) hroom
      simp only [confL, User.baseOf, hpc, User.pcOf, pcL] at h1
      refine ⟨.inl ch, ?_⟩
      rcases Example.text_step _ hc h1 with ⟨rfl, -⟩ | ⟨r, rfl, -⟩ <;> exact ⟨_, by simp only [both, h1]; rfl⟩
    | right p =>
      obtain ⟨ch, ⟨s', p', e⟩, -, h1⟩ := Queue.Code.queue_text_enabled hq hn (tester_queue_exec hx) (t := t)
        (by simp only [confR, User.baseOf, hpc, User.pcOf, pcR]; exact hc) hroom'
      simp only [confR, User.baseOf, hpc, User.pcOf, pcR] at h1
      refine ⟨.inr ch, ?_⟩
      rcases Example.text_step _ hc h1 with ⟨rfl, -⟩ | ⟨r, rfl, -⟩ <;> exact ⟨_, by simp only [both, h1]; rfl⟩
  have hn' : ∀ t, ∃ s', quiet (both (program F Unit).mach (Queue.Code.program Q Nat).mach) t C.s.1 [] = some s' := fun _ => ⟨_, rfl⟩
  have hm : x.main = x.allocators + x.deallocators := rfl
  by_cases hall : ∀ u < x.main, C.pc u = .at .ended
  · refine ⟨x.main, Nat.le_refl _, ?_⟩
    have he : ∀ u < x.main, C.s.2.ended u = true := fun u hu => tester_ended hx u (hall u hu)
    have hr := hi.role x.main
    cases hq' : C.pc x.main with
    | call a p => exact hin _ a p hq'
    | «at» a =>
      rw [hq'] at hr hp
      cases a with
      | joinAlloc =>
        refine able_act (b := true) hq' rfl (g := C.s.2) (l := []) (k' := .stop) ?_ (hn' _)
        simp only [script, Setup.act]
        rw [if_pos (by simp only [List.all_eq_true, List.mem_range]; intro u hu; exact he u (by omega))]
        rfl
      | joinDealloc =>
        refine able_act (b := true) hq' rfl (g := C.s.2) (l := []) (k' := .finished) ?_ (hn' _)
        simp only [script, Setup.act]
        rw [if_pos (by simp only [List.all_eq_true, List.mem_range]; intro u hu; exact he _ (by omega))]
        rfl
      | stop => exact able_act (b := true) hq' rfl rfl (hn' _)
      | finished => exact absurd rfl hp
      | _ => simp [Role, User.PC.here] at hr <;> omega
  · obtain ⟨u, hu⟩ := Classical.not_forall.1 hall
    obtain ⟨hu, hne⟩ := Classical.not_imp.1 hu
    refine ⟨u, Nat.le_of_lt hu, ?_⟩
    have hr := hi.role u
    have ht := ht u hu
    cases hq' : C.pc u with
    | call a p => exact hin _ a p hq'
    | «at» a =>
      rw [hq'] at hr hne ht
      cases a with
      | construct | destruct | push | pop => exact able_call hq' rfl ⟨_, rfl⟩
      | forTest | insert | erase | leave => exact able_act (b := true) hq' rfl rfl (hn' _)
      | load => exact able_act (b := false) hq' rfl rfl (hn' _)
      | ended => exact absurd rfl hne
      | threw => exact absurd rfl ht
      | failed => exact hr.elim
      | joinAlloc | stop | joinDealloc | finished => exact absurd hr (Nat.ne_of_lt hu)
      | absent => exact absurd hr (Nat.not_lt.2 (Nat.le_of_lt hu))

end Verif.Freelist.Tester
