import Verif.Text

/-!
# Total correctness of structured programs executed by one thread

No code of /repo is modelled here. Used for constructors and destructors, which no other thread can observe (C59).
-/

namespace Verif.Text
open Lin

variable {S L Ch O R : Type}

/-- Every execution of `k`, alone, in which accesses are resolved by choices `al` only, and with at most `f` spurious failures (`sp`), comes to a place where
`Q` holds, after at most `n` steps, without undefined behaviour and without being blocked. -/
inductive Ends (t : Nat) (al : Ch → Prop) (sp : Ch → Bool) (Q : S → L → Rest S L Ch → Prop) : Nat → Nat → S → L → Rest S L Ch → Prop where
  | here {n f s l k} : Q s l k → Ends t al sp Q n f s l k
  | step {n f s l k l' k'} : ctl l k = some (l', k') → Ends t al sp Q n f s l' k' → Ends t al sp Q (n + 1) f s l k
  | acc {n f s l k} {a : Access S L Ch} :
      (∃ ch y, al ch ∧ sp ch = false ∧ a.ok s l ch = true ∧ a.run t s l ch = some y) →
      (∀ ch s' l', al ch → a.ok s l ch = true → a.run t s l ch ≠ some (s', l', .ub)) →
      (∀ ch s' l' w, al ch → a.ok s l ch = true → sp ch = false → a.run t s l ch = some (s', l', w) → Ends t al sp Q n f s' l' (w.rest k)) →
      (∀ ch s' l' w g, al ch → a.ok s l ch = true → sp ch = true → f = g + 1 → a.run t s l ch = some (s', l', w) → Ends t al sp Q n g s' l' (w.rest k)) →
      Ends t al sp Q (n + 1) f s l (.stm (.acc a) :: k)

variable {t n m f g : Nat} {al : Ch → Prop} {sp : Ch → Bool} {Q : S → L → Rest S L Ch → Prop} {s s' : S} {l l' : L} {k k' : Rest S L Ch}

theorem Ends.mono (h : Ends t al sp Q n f s l k) (hn : n ≤ m) : Ends t al sp Q m f s l k := by
  induction h generalizing m with
  | here h => exact .here h
  | step h _ ih => cases m with
    | zero => omega
    | succ m => exact .step h (ih (by omega))
  | acc h1 h2 _ _ ih1 ih2 => cases m with
    | zero => omega
    | succ m =>
      exact .acc h1 h2 (fun ch s' l' w a b c d => ih1 ch s' l' w a b c d (by omega)) fun ch s' l' w g a b c d e => ih2 ch s' l' w g a b c d e (by omega)

theorem Ends.tt {c a b} (h : c l = true) (hr : Ends t al sp Q n f s l (.stm a :: k)) : Ends t al sp Q (n + 1) f s l (.stm (.ite c a b) :: k) :=
  .step (by simp [ctl, h]) hr

theorem Ends.ff {c a b} (h : c l = false) (hr : Ends t al sp Q n f s l (.stm b :: k)) : Ends t al sp Q (n + 1) f s l (.stm (.ite c a b) :: k) :=
  .step (by simp [ctl, h]) hr

/-- An access that can be resolved in one way only. -/
theorem Ends.only {a : Access S L Ch} (ch : Ch) (ha : al ch) (hs : sp ch = false) (hok : a.ok s l ch = true) (hr : a.run t s l ch = some (s', l', .next))
    (ho : ∀ ch', ch' ≠ ch → a.run t s l ch' = none) (h : Ends t al sp Q n f s' l' k) : Ends t al sp Q (n + 1) f s l (.stm (.acc a) :: k) := by
  have key : ∀ ch' y, a.run t s l ch' = some y → ch' = ch ∧ y = (s', l', .next) := by
    intro ch' y hy
    have h1 : ch' = ch := by
      refine Classical.byContradiction fun hn => ?_
      rw [ho _ hn] at hy; cases hy
    subst h1
    rw [hr] at hy
    exact ⟨rfl, (Option.some.inj hy).symm⟩
  refine .acc ⟨ch, _, ha, hs, hok, hr⟩ (fun ch' s₁ l₁ _ _ h1 => ?_) (fun ch' s₁ l₁ w _ _ _ h1 => ?_) (fun ch' s₁ l₁ w g _ _ h2 _ h1 => ?_)
  · have := (key _ _ h1).2; cases this
  · have := (key _ _ h1).2; cases this; exact h
  · rw [(key _ _ h1).1, hs] at h2; cases h2

/-! ### Calls -/

variable {P : Program S L Ch O R}

/-- The steps considered. -/
def Program.okAl (_ : Program S L Ch O R) (al : Ch → Prop) (s : S) (q : TPC S L Ch R) (ch : TChoice Ch O) : Prop :=
  Program.ok (fun _ _ => True) s q ch ∧ ∀ c, ch = .act c → al c

/-- A call of `o` executed by thread `t`, alone, starting from shared state `s`, accesses being resolved by choices `al` only: there is no undefined
behaviour; until it returns the thread can make a step other than a spurious failure (`sp`), and makes at most `N b` steps if it meets `b` spurious failures; when it
returns `r`, then `Post s' r` holds. -/
def Total (P : Program S L Ch O R) (al : Ch → Prop) (sp : Ch → Bool) (t : Nat) (s : S) (o : O) (N : Nat → Nat) (Post : S → R → Prop) : Prop :=
  ∃ l x, P.body t o = some (l, x) ∧ ∀ s' q' a b, Moves P.mach (P.okAl al) (spurious sp) t s (.run l [.stm x]) [] s' q' a b →
    a + b ≤ N b ∧ q' ≠ .err ∧ (∀ r, q' = .ret r → Post s' r) ∧
      ((∀ r, q' ≠ .ret r) → ∃ ch y, spurious (O := O) sp q' ch = false ∧ P.okAl al s' q' ch ∧ P.mach.step t s' q' ch = some y)

theorem Ends.sound (he : ∀ t s ch, P.env t s ch = none) {s' q' h a b} (hE : Ends t al sp Q n f s l k)
    (hm : Moves P.mach (P.okAl al) (spurious sp) t s (.run l k) h s' q' a b) (hh : h = []) (hb : b ≤ f) :
    (∃ n' l' k', q' = .run l' k' ∧ Ends t al sp Q n' (f - b) s' l' k' ∧ a + b + n' ≤ n) ∨
    ∃ s₁ l₁ k₁ a' b', Q s₁ l₁ k₁ ∧ Moves P.mach (P.okAl al) (spurious sp) t s₁ (.run l₁ k₁) [] s' q' a' b' ∧ a + b ≤ n + a' + b' := by
  induction hm with
  | stay => exact .inl ⟨n, l, k, rfl, hE, by omega⟩
  | @step h s₁ p₁ a b ch s' p' e _ hok hs ih =>
    have h0 : h = [] ∧ e.toList = [] := by simpa using hh
    obtain ⟨rfl, he'⟩ := h0
    have hb' : b ≤ f := by omega
    rcases ih rfl hb' with ⟨n', l₁, k₁, rfl, h1, h2⟩ | ⟨s₂, l₂, k₂, a', b', h1, h2, h3⟩
    · cases h1 with
      | here hQ =>
        refine .inr ⟨s₁, l₁, k₁, _, _, hQ, by simpa [he'] using Moves.one (sw := spurious sp) hok hs, ?_⟩
        omega
      | @step n'' _ _ _ _ l₂ k₂ hc h1 =>
        left
        simp only [Program.mach] at hs
        split at hs <;> rename_i heq <;> try (cases heq; done)
        · cases heq; simp [ctl] at hc
        · cases heq
          simp [hc] at hs
          obtain ⟨rfl, rfl, rfl⟩ := hs
          exact ⟨n'', l₂, k₂, rfl, by simpa [spurious] using h1, by simp [spurious]; omega⟩
        · cases heq; simp [ctl] at hc
        · simp [he] at hs
        · simp at hs
      | @acc n'' _ _ _ k₂ ac h4 h5 h6 h7 =>
        left
        simp only [Program.mach] at hs
        split at hs <;> rename_i heq <;> try (cases heq; done)
        · cases heq; simp [ctl] at hs
        · rename_i l₀ a₀ k₀ ch₀
          cases heq
          have hal := hok.2 ch₀ rfl
          have hao : ac.ok s₁ l₁ ch₀ = true := hok.1
          have go : ∀ {s' l' w}, ac.run t s₁ l₁ ch₀ = some (s', l', w) → ∃ n' l'' k'', (TPC.run l' (w.rest k₂) : TPC S L Ch R) = .run l'' k'' ∧
              Ends t al sp Q n' (f - (b + if spurious (O := O) (R := R) sp (.run l₁ (.stm (.acc ac) :: k₂)) (.act ch₀) then 1 else 0)) s' l'' k'' ∧
              (a + if spurious (O := O) (R := R) sp (.run l₁ (.stm (.acc ac) :: k₂)) (.act ch₀) then 0 else 1) +
                (b + if spurious (O := O) (R := R) sp (.run l₁ (.stm (.acc ac) :: k₂)) (.act ch₀) then 1 else 0) + n' ≤ n := by
            intro s' l' w hr
            refine ⟨n'', l', _, rfl, ?_, ?_⟩
            · cases hsp : sp ch₀ with
              | false => simpa [spurious, hsp] using h6 ch₀ _ _ _ hal hao hsp hr
              | true =>
                simp only [spurious, hsp, if_true] at hb ⊢
                exact h7 ch₀ _ _ _ _ hal hao hsp (by omega) hr
            · cases hsp : sp ch₀ <;> simp [spurious, hsp] <;> omega
          split at hs
          · simp at hs
          · simp at hs
            obtain ⟨rfl, rfl, rfl⟩ := hs
            exact go (by assumption)
          · simp at hs
            obtain ⟨rfl, rfl, rfl⟩ := hs
            exact go (by assumption)
          · rename_i hr
            exact absurd hr (h5 _ _ _ hal hao)
        · simp [he] at hs
        · simp at hs
    · right
      have h4 := h2.step hok hs
      refine ⟨s₂, l₂, k₂, _, _, h1, by simpa [he'] using h4, ?_⟩
      omega

theorem Total.of_ends (he : ∀ t s ch, P.env t s ch = none) {o : O} {x : Stm S L Ch} {N : Nat → Nat} {Post : S → R → Prop} (hb : P.body t o = some (l, x))
    (hE : ∀ f, Ends t al sp (fun s l k => k = [] ∧ Post s (P.result l)) (N f) f s l [.stm x]) :
    Total P al sp t s o (fun b => N b + 1) Post := by
  refine ⟨l, x, hb, fun s' q' a b hm => ?_⟩
  have step_of : ∀ {n f s l k}, Ends t al sp (fun s l k => k = [] ∧ Post s (P.result l)) n f s l k →
      ∃ ch y, spurious (O := O) sp (.run l k : TPC S L Ch R) ch = false ∧ P.okAl al s (.run l k) ch ∧ P.mach.step t s (.run l k) ch = some y := by
    intro n f s l k h
    cases h with
    | here h => obtain ⟨rfl, -⟩ := h; exact ⟨.tau, _, rfl, ⟨trivial, by simp⟩, rfl⟩
    | @step _ _ _ l k l' k' hc _ =>
      refine ⟨.tau, (s, .run l' k', none), rfl, ⟨?_, by simp⟩, ?_⟩
      · simp only [Program.ok]
      · cases k with
        | nil => simp [ctl] at hc
        | cons i k => simp [Program.mach, hc]
    | acc h =>
      obtain ⟨ch, ⟨s', l', w⟩, h1, h2, h3, h4⟩ := h
      cases w
      · exact ⟨.act ch, (s', .run l' _, none), h2, ⟨h3, by rintro _ ⟨⟩; exact h1⟩, by simp only [Program.mach, h4]; rfl⟩
      · exact ⟨.act ch, (s', .run l' _, none), h2, ⟨h3, by rintro _ ⟨⟩; exact h1⟩, by simp only [Program.mach, h4]; rfl⟩
      · exact ⟨.act ch, (s', .err, none), h2, ⟨h3, by rintro _ ⟨⟩; exact h1⟩, by simp only [Program.mach, h4]⟩
  rcases Ends.sound he (hE b) hm rfl (Nat.le_refl _) with ⟨n', l', k', rfl, h1, h2⟩ | ⟨s₁, l₁, k₁, a', b', ⟨rfl, h1⟩, h2, h3⟩
  · exact ⟨by show _ ≤ N b + 1; omega, by simp, by simp, fun _ => step_of h1⟩
  · have key : ∀ {h s' q' a b}, Moves P.mach (P.okAl al) (spurious sp) t s₁ (.run l₁ []) h s' q' a b → h = [] →
        (q' = .run l₁ [] ∧ s' = s₁ ∧ a + b = 0) ∨ (q' = .ret (P.result l₁) ∧ s' = s₁ ∧ a + b = 1) := by
      intro h s' q' a b hm hh
      induction hm with
      | stay => exact .inl ⟨rfl, rfl, rfl⟩
      | @step h s₂ p₁ a b ch s' p' e _ hok hs ih =>
        have h0 : h = [] ∧ e.toList = [] := by simpa using hh
        rcases ih h0.1 with ⟨rfl, rfl, h4⟩ | ⟨rfl, rfl, h4⟩
        · right
          cases ch <;> simp [Program.mach, he] at hs
          obtain ⟨rfl, rfl, rfl⟩ := hs
          exact ⟨rfl, rfl, by simp [spurious]; omega⟩
        · exfalso
          cases ch <;> simp [Program.mach, he] at hs
          obtain ⟨rfl, rfl, rfl⟩ := hs
          simp at h0
    rcases key h2 rfl with ⟨rfl, rfl, h4⟩ | ⟨rfl, rfl, h4⟩
    · exact ⟨by show _ ≤ N b + 1; omega, by simp, by simp, fun _ => ⟨.tau, _, rfl, ⟨trivial, by simp⟩, rfl⟩⟩
    · refine ⟨by show _ ≤ N b + 1; omega, by simp, ?_, fun h => absurd rfl (h _)⟩
      rintro r ⟨⟩
      exact h1

theorem Total.mono {o : O} {N : Nat → Nat} {Post Post' : S → R → Prop} (h : Total P al sp t s o N Post) (hp : ∀ s r, Post s r → Post' s r) :
    Total P al sp t s o N Post' := by
  obtain ⟨l, x, h1, h2⟩ := h
  refine ⟨l, x, h1, fun s' q' a b hm => ?_⟩
  obtain ⟨h3, h4, h5, h6⟩ := h2 s' q' a b hm
  exact ⟨h3, h4, fun r hr => hp _ _ (h5 r hr), h6⟩

end Verif.Text
