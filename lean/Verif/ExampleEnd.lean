import Verif.ExampleInv
import Verif.Text

/-!
# The example programs: what holds when `main` prints

No further code of /repo is modelled here.
-/

namespace Verif.Lin
variable {Op Ret : Type} {S : Spec Op Ret} {hb : Nat → Nat → Prop} {h : History Op Ret} {L : List (Nat × Op × Ret)}

/-- All calls have returned; some call of `pop` found the container empty, and the return of every other operation that adds elements happens before it. Then the
elements taken are the elements added. -/
theorem HbLinearization.drained {put get : Op → Ret → List Nat} {adds : Op → Prop} (hl : HbLinearization S hb h L) (val : S.State → List Nat)
    (hinit : val S.init = []) (hstep : ∀ σ i o r σ', (i, o, r) ∈ L → S.step σ o r σ' → (get o r ++ val σ').Perm (put o r ++ val σ))
    (hall : ∀ (i t : Nat) (o : Op), h[i]? = some (.inv t o) → ∃ j r, Returned h i j r) (hput : ∀ i o r, (i, o, r) ∈ L → ¬ adds o → put o r = [])
    {i j t : Nat} {o : Op} {r : Ret} (hi : h[i]? = some (.inv t o)) (hr : Returned h i j r) (hempty : ∀ σ σ', S.step σ o r σ' → val σ' = [])
    (hlate : ∀ (k u : Nat) (o : Op), h[k]? = some (.inv u o) → adds o → ∃ j r, Returned h k j r ∧ hb j i) :
    ((calls h).flatMap fun c => get c.2.1 c.2.2).Perm ((calls h).flatMap fun c => put c.2.1 c.2.2) := by
  obtain ⟨o', hm⟩ := hl.complete i j r hr
  obtain ⟨t', ht'⟩ := hl.invoked _ hm
  rw [hi] at ht'
  cases ht'
  have hperm : L.Perm (calls h) := by
    refine hl.perm_calls fun x hx => ?_
    obtain ⟨u, hu⟩ := hl.invoked x hx
    obtain ⟨j', r', hr'⟩ := hall _ _ _ hu
    obtain ⟨o', ho'⟩ := hl.complete _ _ _ hr'
    have := List.inj_on_of_nodup_map hl.nodup hx ho' rfl
    rw [this]; exact ⟨j', hr'⟩
  obtain ⟨σ, hrun⟩ := hl.legal
  have hval : val σ = [] := by
    obtain ⟨L₁, L₂, rfl⟩ := List.append_of_mem hm
    obtain ⟨σ₁, σ₂, _, h2, _, h4⟩ := hrun.split
    have h5 := Run.perm (push := put) (hand := get) (val := val) (fun σ i o r σ' hx hs => hstep σ i o r σ' (by simp [hx]) hs) h4
    have h6 : (L₂.flatMap fun x => put x.2.1 x.2.2) = [] := by
      rw [List.flatMap_eq_nil_iff]
      intro y hy
      refine hput y.1 _ _ (by simp [hy]) fun ha => ?_
      obtain ⟨u, hu⟩ := hl.invoked y (by simp [hy])
      obtain ⟨j', r', h7, h8⟩ := hlate _ _ _ hu ha
      have := (List.pairwise_append.1 hl.order).2.1
      rw [List.pairwise_cons] at this
      exact this.1 y hy ⟨j', r', h7, h8⟩
    rw [h6, hempty _ _ h2] at h5
    have := List.perm_nil.1 h5
    simp at this
    exact this.2
  have := Run.perm (push := put) (hand := get) (val := val) hstep hrun
  rw [hval, hinit, List.append_nil, List.append_nil] at this
  exact (hperm.flatMap_right _).symm.trans (this.trans (hperm.flatMap_right _))

end Verif.Lin

namespace Verif.Example
open Lin

section
variable {S P Ch O R O' R' : Type} {m : Mach S P Ch O R} {x : Setup Ch R} {push : Nat → O'} {pop : O'} {res : R' → Option Bool} {put get : O' → R' → List Nat}
  {b : History O' R'} {C : MConf (S × Vars) (PC P)}

/-- `main` prints: every thread has ended, and is in no call. -/
theorem Inv.all_at (hi : Inv m x push pop res put get b C) (hp : C.pc x.main = .at .print) (t : Nat) : ∃ a, C.pc t = .at a ∧ a ≠ .terminated := by
  rcases Nat.lt_trichotomy t x.main with h | h | h
  · exact ⟨_, hi.over hp t h, by simp⟩
  · subst h; exact ⟨_, hp, by simp⟩
  · have h1 := hi.role t
    generalize C.pc t = p at h1
    match p, h1 with
    | .at .absent, _ => exact ⟨_, rfl, by simp⟩
    | .at (.forTest _), h' | .at (.count _), h' | .at (.push _ _), h' | .call (.push _ _) _, h' =>
      have : x.main = x.producers + x.consumers := rfl
      simp only [Role] at h'; omega
    | .at .test, h' | .at (.pop _), h' | .at (.counted _), h' | .call (.pop _) _, h' | .at .leave, h' => have := h'.2; omega
    | .at .ended, h' | .at .terminated, h' => simp only [Role] at h'; omega
    | .at .joinProducers, h' | .at .setDone, h' | .at .joinConsumers, h' | .at .print, h' => simp only [Role] at h'; omega

/-- What `main` prints for the producers, and what they have pushed. -/
theorem Inv.at_print (hi : Inv m x push pop res put get b C) (hp : C.pc x.main = .at .print) :
    C.s.2.producer_count = x.producers * x.iterations ∧ (allPut put b).Perm ((List.range (x.producers * x.iterations)).map (· + 1)) ∧
      C.s.2.consumer_count = (allPut get b).length ∧ (∀ (i t : Nat) (o : O'), b[i]? = some (.inv t o) → ∃ j r, Returned b i j r) := by
  have hpm : x.producers ≤ x.main := Nat.le_add_right _ _
  have hnt : ∀ t, C.pc t ≠ .at .terminated := by
    intro t h
    obtain ⟨a, h1, h2⟩ := hi.all_at hp t
    rw [h] at h1
    cases h1
    exact h2 rfl
  have h1 := hi.prog hnt
  rw [total_const (k := x.iterations)] at h1
  · have h2 := hi.values hnt
    have h3 : ((List.range x.producers).flatMap fun t => held (C.pc t)) = [] := by
      rw [List.flatMap_eq_nil_iff]
      intro t ht
      rw [hi.over hp t (by simp at ht; omega)]; rfl
    rw [h3, List.append_nil] at h2
    have h4 : C.s.2.producer_count = x.producers * x.iterations := by
      have := h2.length_eq
      simp at this; omega
    have h5 := hi.got
    rw [total_const (k := 0)] at h5
    · refine ⟨h4, h4 ▸ h2, by omega, fun i t o h => ?_⟩
      rcases hi.split i t o h with h6 | h6
      · obtain ⟨a, h7, _⟩ := hi.all_at hp t
        exact absurd h6 (hi.rest t a h7 i o)
      · exact h6
    · intro u hu; rw [hi.over hp u hu]; rfl
  · intro u hu; rw [hi.over hp u (by omega)]; rfl

/-- The last `pop` of a consumer. -/
theorem Inv.last_pop (hi : Inv m x push pop res put get b C) (hp : C.pc x.main = .at .print) (hc : 0 < x.consumers) :
    ∃ (i j t : Nat) (r : R'), b[i]? = some (.inv t pop) ∧ Returned b i j r ∧ res r = some false ∧ Late push b i := by
  have hm : x.main = x.producers + x.consumers := rfl
  obtain ⟨i, j, r, h1, h2, h3, h4⟩ := hi.final x.producers (Nat.le_refl _) (.inr (hi.over hp _ (by omega)))
  exact ⟨i, j, _, r, h1, h2, h3, h4⟩

end

/-! ### Programs -/

section
variable {S L Ch O R : Type}

/-- A step of a call of a program text. -/
theorem text_step (p : Text.Program S L Ch O R) {t : Nat} {s s' : S} {q q' ch e} (hq : q ≠ p.mach.idle) (h : p.mach.step t s q ch = some (s', q', e)) :
    (e = none ∧ q' ≠ p.mach.idle) ∨ ∃ r, e = some (.res t r) ∧ q' = p.mach.idle := by
  simp only [Text.Program.mach] at h hq ⊢
  split at h
  · exact absurd rfl hq
  · cases h; exact .inl ⟨rfl, by simp⟩
  · simp only [Option.map_eq_some_iff] at h
    obtain ⟨y, _, h⟩ := h
    cases h
    exact .inl ⟨rfl, by simp⟩
  · split at h
    · cases h
    · cases h; exact .inl ⟨rfl, by simp⟩
    · cases h; exact .inl ⟨rfl, by simp⟩
    · cases h; exact .inl ⟨rfl, by simp⟩
  · cases h; exact .inr ⟨_, rfl, rfl⟩
  · simp only [Option.map_eq_some_iff] at h
    obtain ⟨y, _, h⟩ := h
    cases h
    exact .inl ⟨rfl, hq⟩
  · cases h

/-- Container given as program text, calls made by the program, synchronisation between calls. -/
theorem text_plays (p : Text.Program S L Ch O R) {okc : S → O → Prop} {x : Setup (Text.TChoice Ch O) R} {push : Nat → O} {pop : O}
    (hpush : ∀ v, x.push v = .call (push v)) (hpop : x.pop = .call pop) (hsync : ∀ ch ∈ x.syncs, ∃ c, ch = .env c) :
    Plays p.mach x (Text.Program.ok okc) where
  push t s v s' p' e h := by
    rw [hpush] at h
    simp only [Text.Program.mach, Option.map_eq_some_iff] at h
    obtain ⟨y, _, h⟩ := h
    cases h
    exact ⟨by simp [Text.Program.mach], _, rfl⟩
  pop t s s' p' e h := by
    rw [hpop] at h
    simp only [Text.Program.mach, Option.map_eq_some_iff] at h
    obtain ⟨y, _, h⟩ := h
    cases h
    exact ⟨by simp [Text.Program.mach], _, rfl⟩
  step t s q ch s' q' e hq h := text_step p hq h
  sync ch hch t s s' q' e h := by
    obtain ⟨c, rfl⟩ := hsync ch hch
    simp only [Text.Program.mach, Option.map_eq_some_iff] at h ⊢
    obtain ⟨y, _, h⟩ := h
    cases h
    exact ⟨rfl, rfl⟩
  allowed ch hch s := by
    obtain ⟨c, rfl⟩ := hsync ch hch
    trivial

end

end Verif.Example
