import Verif.Text
import Verif.Starve

/-!
# Executions of the text in which one thread is watched

No code of /repo is modelled here.
-/

namespace Verif
open Lin

theorem Watched.go {S P Ch O R : Type} {m : Mach S P Ch O R} {ok : S → P → Ch → Prop} {t v k : Nat} {C₀ C : MConf S P} {h : History O R} {ch s' p' e}
    (hx : Watched m ok t C₀ h C k) (hs : m.step v C.s (C.pc v) ch = some (s', p', e)) (hok : ok C.s (C.pc v) ch) :
    Watched m ok t C₀ (h ++ e.toList) ⟨s', upd C.pc v p'⟩ (k + if v = t then 1 else 0) := by
  by_cases hv : v = t
  · subst hv; simpa using hx.own hs hok
  · simpa [hv] using hx.other hv hs hok

end Verif

namespace Verif.Text
open Lin

variable {S L Ch O R PC : Type} {P : Program S L Ch O R} {m : Mach S PC Ch O R} {okCall : S → O → Prop} {okm : S → PC → Ch → Prop} {sp : Ch → Bool} {err : PC}
  {I : Nat → S → PC → Prop} {At : L → Rest S L Ch → PC → Prop} {B : Nat} {t : Nat}

/-- The step is one of the text, and if it is an access, the choice in it satisfies `pl`. -/
def okWith (okCall : S → O → Prop) (pl : Ch → Prop) (s : S) (q : TPC S L Ch R) (c : TChoice Ch O) : Prop :=
  Program.ok okCall s q c ∧ (c matches .env _) = false ∧ ∀ ch, c = .act ch → pl ch

theorem Reach.watched {pl : Ch → Prop} {n v : Nat} {l l' : L} {k k' : Rest S L Ch} (hr : Reach n l k l' k') {C₀ : MConf S (TPC S L Ch R)} {h s} :
    ∀ {pc : Nat → TPC S L Ch R} {a : Nat}, Watched P.mach (okWith okCall pl) t C₀ h ⟨s, pc⟩ a → pc v = .run l k →
    ∃ a', a ≤ a' ∧ Watched P.mach (okWith okCall pl) t C₀ h ⟨s, upd pc v (.run l' k')⟩ a' := by
  induction hr with
  | refl => intro pc a hx hp; exact ⟨a, Nat.le_refl _, by rwa [← hp, upd_eq_self]⟩
  | @step n l k l₁ k₁ l₂ k₂ hc _ ih =>
    intro pc a hx hp
    have h1 : P.mach.step v s (pc v) .tau = some (s, .run l₁ k₁, none) := by
      rw [hp]
      cases k with
      | nil => simp [Text.ctl] at hc
      | cons => simp [Program.mach, hc]
    have h2 := Watched.go hx h1 ⟨by show Program.ok okCall s (pc v) .tau; rw [hp]; unfold Program.ok; split <;> simp_all, rfl, nofun⟩
    simp only [Option.toList, List.append_nil] at h2
    obtain ⟨a', h3, h4⟩ := ih h2 (by simp)
    exact ⟨a', by omega, by rwa [upd_upd] at h4⟩

/-- The text is about to do what the machine does next. -/
def Ahead (At : L → Rest S L Ch → PC → Prop) (B : Nat) : TPC S L Ch R → PC → Prop
  | .run l k, p => Leads B At l k p
  | _, _ => True

/-- Every execution of the machine is one of the program, and the watched thread makes at least half as many steps. -/
theorem Refines.watched (hr : Refines P m okCall okm sp err I At B) (hc : Complete P m okCall okm sp err I At B) {pl : Ch → Prop} {s₀ : S}
    (henv : ∀ t s ch, P.env t s ch = none)
    (hI : ∀ h D, MSteps m okm ⟨s₀, fun _ => m.idle⟩ h D → ∀ t, I t D.s (D.pc t)) {h D k}
    (hx : Watched m (fun s p ch => okm s p ch ∧ pl ch) t ⟨s₀, fun _ => m.idle⟩ h D k) :
    ∃ C k', Watched P.mach (okWith okCall pl) t ⟨s₀, fun _ => .idle⟩ h C k' ∧ C.s = D.s ∧ (∀ t, Follows m okm sp err At B (C.pc t) (D.pc t)) ∧
      k ≤ 2 * k' ∧ (k = 2 * k' → Ahead At B (C.pc t) (D.pc t)) := by
  have key : ∀ {v h k ch s' p' e} {D : MConf S PC} {C : MConf S (TPC S L Ch R)} {k'}, Watched P.mach (okWith okCall pl) t ⟨s₀, fun _ => .idle⟩ h C k' → C.s = D.s →
      (∀ t, Follows m okm sp err At B (C.pc t) (D.pc t)) → k ≤ 2 * k' → (k = 2 * k' → Ahead At B (C.pc t) (D.pc t)) →
      m.step v D.s (D.pc v) ch = some (s', p', e) → okm D.s (D.pc v) ch → pl ch → I v D.s (D.pc v) →
      ∃ C k', Watched P.mach (okWith okCall pl) t ⟨s₀, fun _ => .idle⟩ (h ++ e.toList) C k' ∧ C.s = s' ∧
        (∀ t, Follows m okm sp err At B (C.pc t) (upd D.pc v p' t)) ∧
        (k + if v = t then 1 else 0) ≤ 2 * k' ∧ ((k + if v = t then 1 else 0) = 2 * k' → Ahead At B (C.pc t) (upd D.pc v p' t)) := by
    intro v h k ch s' p' e D C k' h1 h2 h3 hk ha hs hok hpl hI'
    obtain ⟨s, pc⟩ := C
    obtain rfl : s = D.s := h2
    suffices hs : ∃ q k₂, Watched P.mach (okWith okCall pl) t ⟨s₀, fun _ => .idle⟩ (h ++ e.toList) ⟨s', upd pc v q⟩ k₂ ∧
        Follows m okm sp err At B q p' ∧ k' ≤ k₂ ∧ (v = t → k' + 1 ≤ k₂ ∨ k + 1 ≤ 2 * k₂ ∧ Ahead At B q p') by
      obtain ⟨q, k₂, h4, h5, h6, h7⟩ := hs
      refine ⟨_, k₂, h4, rfl, fun u => ?_, ?_, ?_⟩
      · by_cases hu : u = v
        · subst hu; simpa using h5
        · simpa [upd_ne _ _ _ hu] using h3 u
      · by_cases hv : v = t
        · rcases h7 hv with h7 | h7 <;> simp [hv] <;> omega
        · simp [hv]; omega
      · intro he
        by_cases hv : v = t
        · rcases h7 hv with h8 | ⟨-, h8⟩
          · simp [hv] at he; omega
          · subst hv; simpa using h8
        · simp [hv] at he
          simpa [upd_ne _ _ _ (Ne.symm hv)] using ha (by omega)
    have h4 : Follows m okm sp err At B (pc v) (D.pc v) := h3 v
    have ha : v = t → k = 2 * k' → Ahead At B (pc v) (D.pc v) := fun hv => by subst hv; exact ha
    generalize hq : pc v = q at h4 ha
    generalize D.pc v = p at h4 hs hok ha hI'
    have hv := henv v D.s ch
    cases q with
    | idle =>
      cases (show p = m.idle from h4)
      obtain ⟨o, l, a, h5, h6, rfl, rfl, h7⟩ := hc.call _ _ _ _ _ _ hv hok hs
      refine ⟨.run l [.stm a], _, Watched.go (ch := .call o) h1 (by simp [hq, Program.mach, h5])
        ⟨by show Program.ok okCall _ (pc v) (.call o); rw [hq]; exact h6, rfl, nofun⟩, h7, by omega, fun hv => .inl (by simp [hv])⟩
    | ret r => exact h4.elim
    | err =>
      cases (show p = err from h4)
      rw [hc.err _ _ _ hv] at hs
      cases hs
    | run l r =>
      have h4 : Leads B At l r p ∨ (v = t → k + 1 ≤ 2 * k') ∧ ∃ p₁, Silent m okm sp p p₁ ∧ Leads B At l r p₁ := by
        rcases h4 with h4 | h4
        · exact .inl h4
        · by_cases hd : Leads B At l r p
          · exact .inl hd
          · exact .inr ⟨fun hv => by have : ¬ k = 2 * k' := fun he => hd (ha hv he); omega, h4⟩
      rcases h4 with ⟨n, l', r', -, h5, h6⟩ | ⟨h7, p₁, h5, h6⟩
      · obtain ⟨k₁, hk₁, h7⟩ := h5.watched h1 hq
        have h8 := hr.head _ _ _ h6
        match r', h8 with
        | [], _ =>
          cases hr.fin _ _ h6
          cases hc.res _ _ _ _ _ hv hs
          have h9 := Watched.go (v := v) (ch := .tau) h7 (s' := D.s) (p' := .ret (P.result l')) (e := none) (by simp [Program.mach])
            ⟨by simp [Program.ok], rfl, nofun⟩
          have h10 := Watched.go (v := v) (ch := .tau) h9 (s' := D.s) (p' := .idle) (e := some (.res v (P.result l'))) (by simp [Program.mach])
            ⟨by simp [Program.ok], rfl, nofun⟩
          exact ⟨.idle, _, by simpa [upd_upd] using h10, rfl, by omega, fun hv => .inl (by simp [hv]; omega)⟩
        | .stm (.acc a) :: r', _ =>
          obtain ⟨h9, ⟨s₂, l₂, f⟩, h10⟩ := hc.access _ _ _ _ _ _ _ _ hI' h6 hv hok hs
          obtain ⟨p₂, h11, h12, h13⟩ := hr.access v _ _ _ _ _ _ _ _ _ hI' h6 h9 h10
          cases Option.some.inj (h12.symm.trans hs)
          have h14 : P.mach.step v D.s (upd pc v (.run l' (.stm (.acc a) :: r')) v) (.act ch) =
              some (s', (match f with | .next => .run l₂ r' | .throws => .run l₂ (toHandler r') | .ub => .err), none) := by
            simp only [Program.mach, upd_self, h10]
            cases f <;> rfl
          have h15 := Watched.go h7 h14 ⟨by show Program.ok okCall _ (upd pc v _ v) (.act ch); rw [upd_self]; exact h9, rfl, by rintro _ ⟨⟩; exact hpl⟩
          rw [upd_upd] at h15
          refine ⟨_, _, h15, ?_, by omega, fun hv => .inl (by simp [hv]; omega)⟩
          cases f <;> exact h13
      · cases (h5 v D.s).2 _ _ hs
        refine ⟨.run l r, k', ?_, .inl h6, Nat.le_refl _, fun hv => .inr ⟨h7 hv, h6⟩⟩
        rw [← hq, upd_eq_self]
        simpa using h1
  induction hx with
  | refl => exact ⟨_, 0, .refl, rfl, fun _ => rfl, Nat.le_refl _, fun _ => trivial⟩
  | @own h D k ch s' p' e hx hs hok ih =>
    obtain ⟨C, k', h1, h2, h3, h4, h5⟩ := ih
    obtain ⟨C', k₂, h6, h7, h8, h9, h10⟩ := key h1 h2 h3 h4 h5 hs hok.1 hok.2 (hI _ _ (hx.steps.mono fun _ _ _ h => h.1) _)
    exact ⟨C', k₂, h6, h7, h8, by simpa using h9, by simpa using h10⟩
  | @other h D k u ch s' p' e hx hu hs hok ih =>
    obtain ⟨C, k', h1, h2, h3, h4, h5⟩ := ih
    obtain ⟨C', k₂, h6, h7, h8, h9, h10⟩ := key h1 h2 h3 h4 h5 hs hok.1 hok.2 (hI _ _ (hx.steps.mono fun _ _ _ h => h.1) _)
    exact ⟨C', k₂, h6, h7, h8, by simpa [hu] using h9, by simpa [hu] using h10⟩

end Verif.Text
