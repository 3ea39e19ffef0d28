import Verif.ClientInstant
import Mathlib.Data.List.Induction

/-!
# Routines built from calls: counting

The completed calls of a history, collected over all threads.
-/

namespace Verif
open Lin

variable {O R : Type} {h : History O R}

/-- Every thread makes calls one after the other. -/
def Orderly (h : History O R) : Prop := ∀ t, ∃ cs x, Did t h cs x

theorem callEvents_snoc {t : Nat} {cs : List (O × R)} {l : History O R} {e : Event O R} (hd : l ++ [e] = callEvents t cs) :
    ∃ cs' o r, cs = cs' ++ [(o, r)] ∧ e = .res t r ∧ l = callEvents t cs' ++ [.inv t o] := by
  rcases List.eq_nil_or_concat cs with rfl | ⟨cs', ⟨o, r⟩, rfl⟩
  · simp [callEvents] at hd
  · rw [List.concat_eq_append, callEvents_append] at hd
    have : callEvents t cs' ++ callEvents t [(o, r)] = (callEvents t cs' ++ [.inv t o]) ++ [.res t r] := by simp [callEvents]
    rw [this] at hd
    obtain ⟨h1, h2⟩ := List.append_inj' hd rfl
    exact ⟨cs', o, r, by simp, by simpa using h2, h1⟩

/-- How the last event of a thread arises. -/
theorem Did.last {t : Nat} {e : Event O R} {cs x} (hd : Did t (h ++ [e]) cs x) (he : e.tid = t) :
    (∃ o, e = .inv t o ∧ x = some o ∧ Did t h cs none) ∨
    ∃ cs' o r, e = .res t r ∧ x = none ∧ cs = cs' ++ [(o, r)] ∧ Did t h cs' (some o) := by
  cases x with
  | none =>
    simp only [Did, ofThread_append, ofThread_eq he] at hd
    obtain ⟨cs', o, r, h1, h2, h3⟩ := callEvents_snoc hd
    exact .inr ⟨cs', o, r, h2, rfl, h1, h3⟩
  | some o =>
    simp only [Did, ofThread_append, ofThread_eq he] at hd
    obtain ⟨h1, h2⟩ := List.append_inj' hd rfl
    simp at h2
    exact .inl ⟨o, h2, rfl, h1⟩

theorem Did.of_snoc_ne {t : Nat} {e : Event O R} {cs x} (hd : Did t (h ++ [e]) cs x) (he : e.tid ≠ t) : Did t h cs x := by
  cases x <;> simpa only [Did, ofThread_append, ofThread_ne he, List.append_nil] using hd

theorem Orderly.of_snoc {e : Event O R} (ho : Orderly (h ++ [e])) : Orderly h := by
  intro t
  obtain ⟨cs, x, hd⟩ := ho t
  by_cases he : e.tid = t
  · rcases hd.last he with ⟨o, _, _, hd⟩ | ⟨cs', o, r, _, _, _, hd⟩
    · exact ⟨_, _, hd⟩
    · exact ⟨_, _, hd⟩
  · exact ⟨_, _, hd.of_snoc_ne he⟩

theorem Did.pending {t : Nat} {cs o} (hd : Did t h cs (some o)) : ∃ i, Pending h t i o := by
  simp only [Did] at hd
  obtain ⟨h₁, h₂, rfl, h3, h4⟩ := filter_split hd
  induction h₂ generalizing h₁ with
  | nil => simp at h4
  | cons e h₂ ih =>
    by_cases he : e.tid = t
    · rw [List.filter_cons_of_pos (by simpa using he)] at h4
      simp at h4
      obtain ⟨rfl, h4⟩ := h4
      refine ⟨h₁.length, by simp, ?_⟩
      intro k e hk hke ht
      rw [List.getElem?_append_right (by omega)] at hke
      obtain ⟨k', hk'⟩ : ∃ k', k - h₁.length = k' + 1 := ⟨k - h₁.length - 1, by omega⟩
      rw [hk', List.getElem?_cons_succ] at hke
      exact h4 e (List.mem_of_getElem? hke) ht
    · have := ih (h₁ := h₁ ++ [e]) (by simpa using hd) (by rw [List.filter_append, h3]; simp [he])
        (by rw [List.filter_cons_of_neg (by simpa using he)] at h4; exact h4)
      simpa using this

theorem calls_inv {t : Nat} {o : O} : (calls (h ++ [.inv t o])).Perm (calls h) := by
  rw [List.perm_ext_iff_of_nodup (calls_nodup _) (calls_nodup _)]
  rintro ⟨i, o', r⟩
  simp only [mem_calls]
  constructor
  · rintro ⟨⟨t', h1⟩, j, hr⟩
    have hj : j < h.length := by
      rcases Nat.lt_or_ge j h.length with hj | hj
      · exact hj
      · have hl := hr.lt.2
        simp at hl
        obtain ⟨_, _, _, _, h3, _⟩ := hr
        rw [show j = h.length by omega] at h3
        simp at h3
    have hr' := (Returned.snoc_old hj).1 hr
    have : i < h.length := by have := hr.lt.1; omega
    rw [List.getElem?_append_left this] at h1
    exact ⟨⟨t', h1⟩, j, hr'⟩
  · rintro ⟨⟨t', h1⟩, j, hr⟩
    exact ⟨⟨t', getElem?_append_some h1⟩, j, (Returned.snoc_old hr.lt.2).2 hr⟩

theorem calls_res {t i : Nat} {o : O} {r : R} (hp : Pending h t i o) :
    (calls (h ++ [.res t r])).Perm (calls h ++ [(i, o, r)]) := by
  have hnew : (i, o, r) ∉ calls h := by
    intro hm
    obtain ⟨_, j, t', o', h1, h2, h3, h4⟩ := mem_calls.1 hm
    rw [hp.1] at h1
    cases h1
    exact hp.2 _ _ h2 h3 rfl
  rw [List.perm_ext_iff_of_nodup (calls_nodup _) (by
    rw [List.nodup_append]; exact ⟨calls_nodup h, by simp, by rintro a ha b hb rfl; simp at hb; subst hb; exact hnew ha⟩)]
  rintro ⟨i', o', r'⟩
  simp only [List.mem_append, mem_calls, List.mem_singleton, Prod.mk.injEq]
  constructor
  · rintro ⟨⟨t', h1⟩, j, hr⟩
    by_cases hj : j < h.length
    · left
      have hr' := (Returned.snoc_old hj).1 hr
      have : i' < h.length := by have := hr.lt.1; omega
      rw [List.getElem?_append_left this] at h1
      exact ⟨⟨t', h1⟩, j, hr'⟩
    · right
      obtain ⟨_, rfl, o'', hp'⟩ := hr.snoc_new hj
      obtain ⟨rfl, rfl⟩ := hp.unique hp'
      rw [getElem?_append_some hp.1] at h1
      cases h1
      exact ⟨rfl, rfl, rfl⟩
  · rintro (⟨⟨t', h1⟩, j, hr⟩ | ⟨rfl, rfl, rfl⟩)
    · exact ⟨⟨t', getElem?_append_some h1⟩, j, (Returned.snoc_old hr.lt.2).2 hr⟩
    · exact ⟨⟨t, getElem?_append_some hp.1⟩, _, hp.returned r'⟩

theorem flatMap_range_snoc {A : Type} {f f' : Nat → List A} {t : Nat} {x : A} (hn : ∀ u, u ≠ t → f' u = f u)
    (ht : f' t = f t ++ [x]) {n : Nat} (hn' : t < n) :
    ((List.range n).flatMap f').Perm ((List.range n).flatMap f ++ [x]) := by
  have key : ∀ l : List Nat, t ∉ l → l.flatMap f' = l.flatMap f := by
    intro l hl
    induction l with
    | nil => rfl
    | cons a l ih =>
      simp only [List.mem_cons, not_or] at hl
      simp only [List.flatMap_cons]
      rw [hn a (fun h => hl.1 h.symm), ih hl.2]
  obtain ⟨A, B, hAB⟩ := List.append_of_mem (List.mem_range.2 hn')
  have hnd : (A ++ t :: B).Nodup := hAB ▸ List.nodup_range
  rw [hAB]
  simp only [List.flatMap_append, List.flatMap_cons]
  rw [List.nodup_append] at hnd
  obtain ⟨_, h2, h3⟩ := hnd
  rw [key A (fun h => h3 t h t (by simp) rfl), key B (List.nodup_cons.1 h2).1, ht]
  have : (f t ++ [x] ++ B.flatMap f).Perm (f t ++ B.flatMap f ++ [x]) := by
    rw [List.append_assoc, List.append_assoc]
    exact List.perm_append_comm.append_left _
  have := this.append_left (A.flatMap f)
  simpa using this

/-- The completed calls are those of the threads. -/
theorem calls_perm (ho : Orderly h) {n : Nat} (hn : ∀ e ∈ h, e.tid < n) :
    ((calls h).map (·.2)).Perm ((List.range n).flatMap fun t => callsOf t h) := by
  induction h using List.reverseRecOn with
  | nil =>
    have : (List.range n).flatMap (fun t => callsOf t ([] : History O R)) = [] := by
      rw [List.flatMap_eq_nil_iff]; intro t _; rfl
    rw [this]; exact List.Perm.refl _
  | append_singleton h e ih =>
    have ih := ih ho.of_snoc fun e he => hn e (by simp [he])
    obtain ⟨cs, x, hd⟩ := ho e.tid
    have hother : ∀ u, u ≠ e.tid → callsOf u (h ++ [e]) = callsOf u h := by
      intro u hu
      obtain ⟨cs, x, hd⟩ := ho u
      rw [hd.callsOf, (hd.of_snoc_ne (Ne.symm hu)).callsOf]
    rcases hd.last rfl with ⟨o, he, rfl, hd'⟩ | ⟨cs', o, r, he, rfl, rfl, hd'⟩
    · have : ∀ u, callsOf u (h ++ [e]) = callsOf u h := by
        intro u
        by_cases hu : u = e.tid
        · subst hu; rw [hd.callsOf, hd'.callsOf]
        · exact hother u hu
      simp only [this]
      rw [he]
      exact (calls_inv.map _).trans ih
    · obtain ⟨i, hp⟩ := hd'.pending
      have hc : ((calls (h ++ [e])).map (·.2)).Perm ((calls h).map (·.2) ++ [(o, r)]) := by
        have := (calls_res (r := r) hp).map (·.2)
        rw [← he, List.map_append] at this
        exact this
      refine hc.trans ?_
      refine (ih.append_right _).trans (List.Perm.symm ?_)
      exact flatMap_range_snoc (t := e.tid) hother (by rw [hd.callsOf, hd'.callsOf]) (hn e (by simp))

variable {S P Ch CO CR L : Type} {m : Mach S P Ch O R} {rt : Routine O R CO CR L} {call : O → Ch}
  {ok : S → P → Ch → Prop} {C₀ C C₁ C₂ : MConf S (CPC P CR L)} {tr tr₁ tr₂ : Trace O R CO CR} {Sp : Spec O R}

theorem MSteps.orderly (hm : m.Callable call) {s₀ : S}
    (hx : MSteps (m.client rt call) (clientOk m rt call ok) (outside s₀) tr C) :
    Orderly (Verif.inner tr) ∧ Orderly (Verif.outer tr) := by
  constructor
  · intro t
    rcases hx.cgood hm t with ⟨_, Cs, cs, h2, h3, h4⟩ | ⟨Cs, cs, o, ds, x, h2, h3, h4, h5⟩
    · exact ⟨_, _, h3⟩
    · exact ⟨_, _, h3⟩
  · intro t
    rcases hx.cgood hm t with ⟨_, Cs, cs, h2, h3, h4⟩ | ⟨Cs, cs, o, ds, x, h2, h3, h4, h5⟩
    · exact ⟨_, _, h2⟩
    · exact ⟨_, _, h2⟩

theorem Routine.Bodies.flatMap {A : Type} {f : O × R → List A} {F : CO × CR → List A}
    (hF : ∀ o cs r, rt.Body o cs r → cs.flatMap f = F (o, r)) {Cs cs} (hb : rt.Bodies Cs cs) :
    cs.flatMap f = Cs.flatMap F := by
  induction hb with
  | nil => rfl
  | snoc _ h2 ih => rw [List.flatMap_append, List.flatMap_append, ih, hF _ _ _ h2]; simp

/-- **Counting.** If `F` says of a routine call what `f` says of the calls it makes then, when no call is in progress, the calls of
the container and the calls of the routines say the same. -/
theorem MSteps.counting (hm : m.Callable call) {s₀ : S}
    (hx : MSteps (m.client rt call) (clientOk m rt call ok) (outside s₀) tr C) (hq : ∀ t, C.pc t = .out)
    {A : Type} {f : O × R → List A} {F : CO × CR → List A} (hF : ∀ o cs r, rt.Body o cs r → cs.flatMap f = F (o, r)) :
    ((calls (Verif.inner tr)).flatMap fun x => f x.2).Perm ((calls (Verif.outer tr)).flatMap fun x => F x.2) := by
  obtain ⟨n, hn⟩ : ∃ n, ∀ e ∈ tr, e.tid < n := by
    clear hx
    induction tr with
    | nil => exact ⟨0, by simp⟩
    | cons e tr ih =>
      obtain ⟨n, hn⟩ := ih
      refine ⟨max n (e.tid + 1), ?_⟩
      intro e' he'
      rcases List.mem_cons.1 he' with rfl | he'
      · omega
      · have := hn e' he'; omega
  obtain ⟨h1, h2⟩ := hx.orderly hm
  have h3 := calls_perm (n := n) h1 (by
    intro e he
    obtain ⟨x, hx, hxe⟩ := List.mem_filterMap.1 he
    rw [tid_inner? hxe]; exact hn x hx)
  have h4 := calls_perm (n := n) h2 (by
    intro e he
    obtain ⟨x, hx, hxe⟩ := List.mem_filterMap.1 he
    rw [tid_outer? hxe]; exact hn x hx)
  have h5 := h3.flatMap_right f
  have h6 := h4.flatMap_right F
  rw [List.flatMap_map] at h5 h6
  refine h5.trans (List.Perm.trans (List.Perm.of_eq ?_) h6.symm)
  rw [List.flatMap_assoc, List.flatMap_assoc]
  congr 1
  funext t
  exact (hx.bodies hm (hq t)).flatMap hF

end Verif
