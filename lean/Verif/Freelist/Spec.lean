import Verif.Lin

/-!
# What a freelist is (specification for C67)

No code of /repo is mentioned here.
-/

namespace Verif.Freelist
open Lin

variable {α : Type}

/-- Calls. `construct`: take a node and construct an object with value `v` in it; `bounded`: do not ask the allocator; `thr`: the
constructor of the object throws. `destruct`: destroy the object in node `n` and give the node back. -/
inductive Op (α : Type) where
  | construct (bounded : Bool) (v : α) (thr : Bool)
  | destruct (n : Nat)

/-- Results: a node or null; an exception; nothing. -/
inductive Ret where
  | node (o : Option Nat)
  | threw
  | done
deriving DecidableEq

/-- The free nodes, the one to be taken next first, and those in use. -/
structure Pool where
  free : List Nat
  used : List Nat

/-- Node `n` is taken: the first free one or, if new nodes can be had, one that is neither free nor in use. -/
inductive Taken (bounded : Bool) (σ : Pool) : Nat → Pool → Prop where
  | reuse {n F} : σ.free = n :: F → Taken bounded σ n ⟨F, n :: σ.used⟩
  | fresh {n} : bounded = false → n ∉ σ.free → n ∉ σ.used → Taken bounded σ n ⟨σ.free, n :: σ.used⟩

/-- What calls do. `fixed`: there are no new nodes. A node whose object was not constructed because of an exception stays in use for ever. -/
inductive Step (fixed : Bool) : Pool → Op α → Ret → Pool → Prop where
  | got {σ b v n σ'} : Taken (fixed || b) σ n σ' → Step fixed σ (.construct b v false) (.node (some n)) σ'
  | lost {σ b v n σ'} : Taken (fixed || b) σ n σ' → Step fixed σ (.construct b v true) .threw σ'
  | noMemory {σ b v thr} : (fixed || b) = false → Step fixed σ (.construct b v thr) .threw σ
  | null {σ b v thr} : (fixed || b) = true → σ.free = [] → Step fixed σ (.construct b v thr) (.node none) σ
  | destruct {σ n} : n ∈ σ.used → Step fixed σ (.destruct n) .done ⟨n :: σ.free, σ.used.erase n⟩

/-- A freelist that starts with `n` free nodes. -/
def spec (α : Type) (fixed : Bool) (n : Nat) : Spec (Op α) Ret where
  State := Pool
  init := ⟨(List.range n).reverse, []⟩
  step := Step fixed

/-! ### Users of a freelist -/

/-- The nodes an event gives to the users of the freelist or takes from them. -/
def ownedStep (l : List Nat) : Event (Op α) Ret → List Nat
  | .res _ (.node (some n)) => n :: l
  | .inv _ (.destruct n) => l.erase n
  | _ => l

/-- The nodes the users have: returned by `construct` and not given back since. -/
def owned (h : History (Op α) Ret) : List Nat := h.foldl ownedStep []

/-- The users give back only what they have. -/
def Disciplined (h : History (Op α) Ret) : Prop :=
  ∀ h₁ t n h₂, h = h₁ ++ .inv t (.destruct n) :: h₂ → n ∈ owned h₁

/-- The users have node `n`, and `v` was the argument of the call of `construct` that returned it. -/
def Made (h : History (Op α) Ret) (n : Nat) (v : α) : Prop :=
  ∃ h₁ t b thr h₂ h₃, h = h₁ ++ .inv t (.construct b v thr) :: (h₂ ++ .res t (.node (some n)) :: h₃) ∧
    (∀ e ∈ h₂, e.tid ≠ t) ∧ ∀ u, Event.inv u (.destruct n) ∉ h₃

theorem owned_snoc (h : History (Op α) Ret) (e : Event (Op α) Ret) : owned (h ++ [e]) = ownedStep (owned h) e := by
  simp [owned]

theorem Disciplined.left {h h' : History (Op α) Ret} (hd : Disciplined (h ++ h')) : Disciplined h :=
  fun h₁ t n h₂ he => hd h₁ t n (h₂ ++ h') (by simp [he])

theorem Disciplined.last {h : History (Op α) Ret} {t n} (hd : Disciplined (h ++ [.inv t (.destruct n)])) : n ∈ owned h :=
  hd h t n [] rfl

theorem owned_append {h h' : History (Op α) Ret} {n : Nat} (hn : n ∈ owned h) (hno : ∀ u, Event.inv u (.destruct n) ∉ h') : n ∈ owned (h ++ h') := by
  suffices ∀ (h' : History (Op α) Ret) (l : List Nat), n ∈ l → (∀ u, Event.inv u (.destruct n) ∉ h') → n ∈ h'.foldl ownedStep l by
    rw [owned, List.foldl_append]
    exact this h' _ hn hno
  intro h'
  induction h' with
  | nil => intro l hl _; exact hl
  | cons e h' ih =>
    intro l hl hno
    refine ih _ ?_ fun u hu => hno u (List.mem_cons_of_mem _ hu)
    unfold ownedStep
    split
    · exact List.mem_cons_of_mem _ hl
    · rename_i u m
      have : n ≠ m := by rintro rfl; exact hno u (List.mem_cons_self ..)
      exact (List.mem_erase_of_ne this).2 hl
    · exact hl

theorem Made.owned {h : History (Op α) Ret} {n : Nat} {v : α} (hm : Made h n v) : n ∈ owned h := by
  obtain ⟨h₁, t, b, thr, h₂, h₃, rfl, -, hno⟩ := hm
  have := owned_append (h := h₁ ++ .inv t (.construct b v thr) :: (h₂ ++ [.res t (.node (some n))])) (h' := h₃) (n := n)
    (by rw [show h₁ ++ Event.inv t (.construct b v thr) :: (h₂ ++ [.res t (.node (some n))]) =
          (h₁ ++ .inv t (.construct b v thr) :: h₂) ++ [.res t (.node (some n))] by simp, owned_snoc]; simp [ownedStep]) hno
  simpa using this

/-- The last event of thread `t` is the invocation of `o`. -/
def Open (h : History (Op α) Ret) (t : Nat) (o : Op α) : Prop := (h.filter fun e => e.tid == t).getLast? = some (.inv t o)

theorem Open.unique {h : History (Op α) Ret} {t : Nat} {o o' : Op α} (h1 : Open h t o) (h2 : Open h t o') : o = o' := by
  rw [Open, h1] at h2; simpa using h2

theorem Open.mem {h : History (Op α) Ret} {t : Nat} {o : Op α} (h1 : Open h t o) : Event.inv t o ∈ h :=
  (List.mem_filter.1 (List.mem_of_getLast? h1)).1

theorem Open.of {h₁ h₂ : History (Op α) Ret} {t : Nat} {o : Op α} (hno : ∀ e ∈ h₂, e.tid ≠ t) : Open (h₁ ++ .inv t o :: h₂) t o := by
  have : h₂.filter (fun e => e.tid == t) = [] := by simpa using hno
  rw [Open, List.filter_append, List.filter_cons_of_pos (by simp [Event.tid]), this]
  simp

theorem Open.snoc {h : History (Op α) Ret} {t : Nat} {o : Op α} {e : Event (Op α) Ret} (ho : Open h t o) (he : e.tid ≠ t) : Open (h ++ [e]) t o := by
  simpa [Open, List.filter_append, he] using ho

/-- A call in progress is the last event of its thread. -/
theorem open_of_reach {fixed : Bool} {n : Nat} {h : History (Op α) Ret} {c : CState (spec α fixed n)} (hr : CReach _ h c) :
    ∀ t o, ((∃ P, c.status t = .pend o P) ∨ ∃ r, c.status t = .done o r) → Open h t o := by
  induction hr with
  | init => intro t o h; simp [CState.initial] at h
  | @move h c e c' _ hm ih =>
    intro u o hu
    cases hm with
    | stay => simpa using ih u o hu
    | @inv t o' h1 =>
      by_cases htu : u = t
      · subst htu
        simp at hu; subst hu
        exact Open.of (h₂ := []) (by simp)
      · simp only [upd_ne _ _ _ htu] at hu
        exact (ih u o hu).snoc (Ne.symm htu)
    | @lin t o' P r σ' h1 h2 =>
      simp only [Option.toList_none, List.append_nil]
      by_cases htu : u = t
      · subst htu
        simp at hu; subst hu
        exact ih u _ (.inl ⟨P, h1⟩)
      · simp only [upd_ne _ _ _ htu] at hu
        exact ih u o hu
    | @obs t o' P r h1 h2 =>
      simp only [Option.toList_none, List.append_nil]
      by_cases htu : u = t
      · subst htu
        simp at hu; subst hu
        exact ih u _ (.inl ⟨P, h1⟩)
      · simp only [upd_ne _ _ _ htu] at hu
        exact ih u o hu
    | @res t o' r h1 =>
      by_cases htu : u = t
      · subst htu; simp at hu
      · simp only [upd_ne _ _ _ htu] at hu
        exact (ih u o hu).snoc (Ne.symm htu)
    | @resObs t o' P r h1 h2 =>
      by_cases htu : u = t
      · subst htu; simp at hu
      · simp only [upd_ne _ _ _ htu] at hu
        exact (ih u o hu).snoc (Ne.symm htu)

/-- The last event matters only if it returns or gives back the node. -/
theorem Made.snoc {h : History (Op α) Ret} {e : Event (Op α) Ret} {n : Nat} {v : α} (hm : Made (h ++ [e]) n v) :
    (Made h n v ∧ ∀ u, e ≠ .inv u (.destruct n)) ∨
      ∃ t b thr, e = .res t (.node (some n)) ∧ Open h t (.construct b v thr) := by
  obtain ⟨h₁, t, b, thr, h₂, h₃, he, h4, h5⟩ := hm
  rcases List.eq_nil_or_concat h₃ with rfl | ⟨h₃', e', rfl⟩
  · have he : h ++ [e] = (h₁ ++ .inv t (.construct b v thr) :: h₂) ++ [.res t (.node (some n))] := by simpa using he
    obtain ⟨rfl, h6⟩ := List.append_inj' he rfl
    cases h6
    exact .inr ⟨t, b, thr, rfl, Open.of h4⟩
  · have he : h ++ [e] = (h₁ ++ .inv t (.construct b v thr) :: (h₂ ++ .res t (.node (some n)) :: h₃')) ++ [e'] := by simpa using he
    obtain ⟨rfl, h6⟩ := List.append_inj' he rfl
    cases h6
    exact .inl ⟨⟨h₁, t, b, thr, h₂, h₃', rfl, h4, fun u hu => h5 u (by simp [hu])⟩, fun u hu => h5 u (by simp [hu])⟩

/-! ### What the specification implies -/

/-- In a sequential run without new nodes: nodes are neither lost nor duplicated. -/
theorem run_nodes {fixed : Bool} {n : Nat} {σ : Pool} {L : List (Nat × Op α × Ret)}
    (hr : Run (spec α fixed n) (spec α fixed n).init L σ)
    (hb : fixed = true ∨ ∀ x ∈ L, ∀ v thr, x.2.1 ≠ .construct false v thr) :
    (σ.free ++ σ.used).Perm (List.range n) := by
  have key : ∀ (σ₀ : (spec α fixed n).State) L (σ : (spec α fixed n).State), Run (spec α fixed n) σ₀ L σ →
      (fixed = true ∨ ∀ x ∈ L, ∀ v thr, x.2.1 ≠ .construct false v thr) →
      (Pool.free σ₀ ++ Pool.used σ₀).Perm (List.range n) → (Pool.free σ ++ Pool.used σ).Perm (List.range n) := by
    intro σ₀ L σ hr
    induction hr with
    | nil => intro _ h; exact h
    | @cons σ i o r σ' L σ'' hs _ ih =>
      intro hb hp
      refine ih (hb.imp id fun h x hx => h x (List.mem_cons_of_mem _ hx)) ?_
      have hno : ∀ b v thr, o = .construct b v thr → (fixed || b) = true := by
        rintro b v thr rfl
        rcases hb with rfl | hb
        · simp
        · cases b
          · exact absurd rfl (hb _ (List.mem_cons_self ..) v thr)
          · simp
      have ht : ∀ {b v thr m τ}, o = .construct b v thr → Taken (fixed || b) σ m τ → (τ.free ++ τ.used).Perm (List.range n) := by
        intro b v thr m τ ho ht
        cases ht with
        | reuse h =>
          rw [h] at hp
          exact (List.perm_middle (l₁ := _)).trans hp
        | fresh h => rw [hno b v thr ho] at h; cases h
      cases hs with
      | got h => exact ht rfl h
      | lost h => exact ht rfl h
      | noMemory => exact hp
      | null => exact hp
      | @destruct m h =>
        refine .trans ?_ hp
        have := (List.perm_cons_erase h).symm
        exact (List.perm_middle (l₁ := σ.free) (a := m)).symm.trans (this.append_left σ.free)
  exact key _ _ _ hr hb (by simp [spec])

end Verif.Freelist
