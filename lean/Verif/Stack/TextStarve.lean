import Verif.TextStarve
import Verif.Stack.Starve
import Verif.Stack.TextProps

/-!
# Stack: single calls may be delayed for ever, in the program text (C80)

No code of /repo is modelled here. Fixed-size stacks: the allocator plays no part.
-/

namespace Verif.Stack
open Lin Text

variable {α : Type} {R : Rep} {n t u k : Nat} {h : History (Op α) (Ret α)}

/-- An ordinary choice. -/
abbrev Plain (ch : SChoice R.K (Op α) α) : Prop := ch = .go ∨ ∃ o, ch = .call o

theorem sfresh_of (hf : R.Faithful) {s : St α} {w : SSt R.K α} (hs : StRel R s w) {p : PC α} {q : SPC R.K α} (hp : PCAt R s p q)
    (hfr : fresh R.cfg s p) : sfresh R w q := by
  have h0 : R.cfg.M ≠ 0 := Nat.pos_iff_ne_zero.1 hf.pos
  cases hp with
  | @alloc b k a a' h1 h2 =>
    cases a <;> cases a' <;> simp only [ARel] at h2 <;> simp only [sfresh, saFresh]
    rw [hs.mem.poolVer, h2.1.ver]
    exact Or.resolve_left hfr h0
  | pcas thr h1 h2 => simp only [sfresh, hs.tosVer, h1.ver]; exact Or.resolve_left hfr h0
  | ccas rev thr h1 => simp only [sfresh, hs.tosVer, h1.ver]; exact Or.resolve_left hfr h0
  | _ => trivial

/-- What the machine on pairs does, the machine on words does. -/
theorem words_step (hf : R.Faithful) (hfix : R.fixed = true) {C : Conf α} {Cw : SConf R.K α} (hr : ConfRel R C Cw) {ch s' p' e}
    (hs : tstep R.cfg t C.s (C.pc t) ch = some (s', p', e)) (hok : okPlain R.cfg C.s (C.pc t) ch) :
    ∃ c w' q', ststep R t Cw.s (Cw.pc t) c = some (w', q', e) ∧ (sokFresh R Cw.s (Cw.pc t) c ∧ Plain c) ∧
      ConfRel R ⟨s', upd C.pc t p'⟩ ⟨w', upd Cw.pc t q'⟩ := by
  obtain ⟨⟨h1, h2⟩, h3⟩ := hok
  have h4 := sfresh_of hf hr.st (hr.pc t) h1
  have key : ∀ c : SChoice R.K (Op α) α, c.base = ch → Plain c → (∃ y, ststep R t Cw.s (Cw.pc t) c = some y) →
      ∃ c w' q', ststep R t Cw.s (Cw.pc t) c = some (w', q', e) ∧ (sokFresh R Cw.s (Cw.pc t) c ∧ Plain c) ∧
        ConfRel R ⟨s', upd C.pc t p'⟩ ⟨w', upd Cw.pc t q'⟩ := by
    rintro c hc hp ⟨⟨w', q', e'⟩, hy⟩
    have h5 : sokFresh R Cw.s (Cw.pc t) c := ⟨h4, fun b hb => h2 b (by rw [← hc, hb]; rfl)⟩
    obtain ⟨s₂, p₂, h6, -, h7⟩ := conf_step hf hr hy h5
    rw [hc, hs] at h6
    cases h6
    exact ⟨c, w', q', hy, ⟨h5, hp⟩, h7⟩
  rcases h3 with rfl | ⟨o, rfl⟩
  · exact key .go rfl (.inl rfl) (step_enabled hf hr.st (hr.pc t) (.inl hfix) hs)
  · refine key (.call o) rfl (.inr ⟨o, rfl⟩) ?_
    have hp := hr.pc t
    generalize C.pc t = p at hs hp
    generalize Cw.pc t = q at hp
    cases hp with
    | idle =>
      have hfix' : R.cfg.fixed = true := hfix
      cases o <;> simp [tstep, start, hfix'] at hs <;> simp [ststep, sstart]
    | @alloc b k a a' =>
      have ha : aStep R.cfg b C.s.heap a (.call o) = none := by
        cases a <;> simp only [aStep]
        repeat' split
        all_goals rfl
      simp [tstep, ha] at hs
    | @free k k' n d => cases d <;> simp [tstep, dStep] at hs
    | _ => simp [tstep] at hs

/-- The same for executions in which a thread is watched. -/
theorem words_watched (hf : R.Faithful) (hfix : R.fixed = true) {C C' : Conf α} {Cw : SConf R.K α} (hr : ConfRel R C Cw)
    (hx : Watched (mach α R.cfg) (okPlain R.cfg) t C h C' k) :
    ∃ Cw', Watched (smach α R) (fun s p ch => sokFresh R s p ch ∧ Plain ch) t Cw h Cw' k ∧ ConfRel R C' Cw' := by
  induction hx with
  | refl => exact ⟨_, .refl, hr⟩
  | own _ hs hok ih =>
    obtain ⟨D, h1, h2⟩ := ih
    obtain ⟨c, w', q', h3, h4, h5⟩ := words_step hf hfix h2 hs hok
    exact ⟨_, .own h1 h3 h4, h5⟩
  | other _ hu hs hok ih =>
    obtain ⟨D, h1, h2⟩ := ih
    obtain ⟨c, w', q', h3, h4, h5⟩ := words_step hf hfix h2 hs hok
    exact ⟨_, .other h1 hu h3 h4, h5⟩

namespace Code

/-- **C80 (stack).** A fixed-size stack. After every history `h` of the machine without accidents that leaves the stack not empty and `t ≠ u` between calls, the
text can be executed such that `t` calls `push`, `pop` or `consume_all` and executes `N` statements or more without returning, although after `h` only `u` calls
and returns. (What `t` executed during `h` is included; C74 bounds it in terms of `h`.) -/
theorem stack_text_not_wait_free (hf : R.Faithful) (hfix : R.fixed = true) (hM : R.M ≠ 1) (hn : n ≤ R.limit) {C : Conf α} {j : Nat}
    (hx : Watched (mach α R.cfg) (okPlain R.cfg) t (Conf.initial n) h C j) (htu : u ≠ t) (ht : C.pc t = .idle) (hu : C.pc u = .idle)
    (hne : C.s.tos.ptr ≠ none) (o : Op α) (ho : Delayable R.cfg C.s o) (N : Nat) :
    ∃ h' C' k, N ≤ k ∧ Watched (program R α).mach (okWith (fun _ o => ∀ b, o ≠ .pushRange b []) Plain) t
      ⟨(SConf.initial R n : SConf R.K α).s, fun _ => .idle⟩ (h ++ .inv t o :: h') C' k ∧ By u h' := by
  have hx' : FreshExec R.cfg n h C := hx.steps.mono fun _ _ _ h => h.1
  obtain ⟨h', C', k, h1, h2, h3⟩ := stack_not_wait_free hM hx' htu ht hu hne o ho (2 * N)
  obtain ⟨Cw, h4, -⟩ := words_watched hf hfix (ConfRel.initial hf hn) (hx.trans h2)
  obtain ⟨D, k', h5, -, -, h6, -⟩ := (refines hf).watched complete (pl := Plain) (fun _ _ _ => rfl) (fun _ _ hx t => text_inv hf hn hx t) h4
  exact ⟨h', D, k', by omega, h5, h3⟩

end Code
end Verif.Stack
