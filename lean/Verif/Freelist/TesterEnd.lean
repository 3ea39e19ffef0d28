import Verif.Freelist.TesterInv

/-!
# The stress test of the freelists: the end

Proofs only.
-/

namespace Verif.Freelist.Tester
open Lin User Both
open Verif.Queue (delivered offered accepted)

variable {P₁ P₂ : Type} {x : Setup} {h : History (Op Unit ⊕ Queue.Op Nat) (Ret ⊕ Queue.Ret Nat)} {pc : Nat → User.PC At (Both.PC P₁ P₂)} {g g' : Vars}
  {t : Nat} {p' : User.PC At (Both.PC P₁ P₂)} {b : History (Queue.Op Nat) (Queue.Ret Nat)}

/-- All pushes have returned before position `i`. -/
def Before (b : History (Queue.Op Nat) (Queue.Ret Nat)) (i : Nat) : Prop :=
  ∀ (k u : Nat) (bd : Bool) (v : Nat), b[k]? = some (.inv u (.push bd v)) → ∃ j r, Returned b k j r ∧ j < i

/-- Thread `t` has found the queue empty after all pushes. -/
def Seen (b : History (Queue.Op Nat) (Queue.Ret Nat)) (t : Nat) : Prop :=
  ∃ i j, b[i]? = some (.inv t .pop) ∧ Returned b i j (.popped none) ∧ Before b i

theorem Before.snoc {i : Nat} (hb : Before b i) {e : Event (Queue.Op Nat) (Queue.Ret Nat)} (he : ∀ u bd v, e ≠ .inv u (.push bd v)) : Before (b ++ [e]) i := by
  intro k u bd v hk
  rw [getElem?_snoc] at hk
  split at hk
  · obtain ⟨j, r, h1, h2⟩ := hb k u bd v hk
    exact ⟨j, r, h1.snoc, h2⟩
  · split at hk
    · cases hk; exact absurd rfl (he u bd v)
    · cases hk

theorem Seen.snoc (hs : Seen b t) {e : Event (Queue.Op Nat) (Queue.Ret Nat)} (he : ∀ u bd v, e ≠ .inv u (.push bd v)) : Seen (b ++ [e]) t := by
  obtain ⟨i, j, h1, h2, h3⟩ := hs
  refine ⟨i, j, ?_, h2.snoc, h3.snoc he⟩
  rw [getElem?_snoc, if_pos (lt_of_getElem? h1)]
  exact h1

/-- The main thread has joined the allocators. -/
def Stopped : At → Prop
  | .stop | .joinDealloc | .finished => True
  | _ => False

/-- In the second loop of `deallocate`. -/
def Draining : At → Prop
  | .pop true | .erase true _ | .destruct true _ => True
  | _ => False

structure EInv (x : Setup) (fits : Prop) (b : History (Queue.Op Nat) (Queue.Ret Nat)) (pc : Nat → User.PC At (Both.PC P₁ P₂)) (g : Vars) : Prop where
  ended : ∀ t, g.ended t = true → pc t = .at .ended
  alloc : Stopped (pc x.main).here → ∀ t < x.allocators, g.ended t = true
  dealloc : (pc x.main).here = .finished → ∀ t < x.main, g.ended t = true
  run : g.running = false → (pc x.main).here = .joinDealloc ∨ (pc x.main).here = .finished
  drain : ∀ t, Draining (pc t).here → g.running = false
  late : ∀ t q i, pc t = .call (.pop true) q → Pending b t i .pop → Before b i
  seen : ∀ t, x.allocators ≤ t → (pc t).here = .leave ∨ (pc t).here = .ended → g.running = false ∧ Seen b t
  acc : fits → (∀ t, (pc t).here ≠ .threw) → ∀ y, (offered b).count y = (accepted b).count y + tot inPush pc y (x.main + 1)

theorem EInv.initial (x : Setup) (fits : Prop) : EInv (P₁ := P₁) (P₂ := P₂) x fits [] (fun t => .at (start x t)) Vars.init where
  ended t h := by simp [Vars.init] at h
  alloc h := by
    have : start x x.main = .joinAlloc := by simp [start, Setup.main]
    rw [PC.here, this] at h
    exact h.elim
  dealloc h := by
    have : start x x.main = .joinAlloc := by simp [start, Setup.main]
    rw [PC.here, this] at h
    cases h
  run h := by simp [Vars.init] at h
  drain t h := by
    simp only [PC.here, start] at h
    repeat' split at h
    all_goals exact h.elim
  late t q i h := by cases h
  seen t _ h := by
    simp only [PC.here, start] at h
    repeat' split at h
    all_goals simp at h
  acc _ _ y := by
    rw [tot_zero]
    · rfl
    · intro t; rfl

/-- Once `running` is false, the allocators have ended. -/
theorem EInv.over {fits : Prop} (hi : EInv x fits b pc g) (hr : g.running = false) {t : Nat} (ht : t < x.allocators) : pc t = .at .ended := by
  refine hi.ended t (hi.alloc ?_ t ht)
  rcases hi.run hr with h | h <;> rw [h] <;> trivial

/-- What a step must satisfy to keep the invariant. -/
theorem EInv.assemble {fits : Prop} {b' : History (Queue.Op Nat) (Queue.Ret Nat)} (hi : EInv x fits b pc g) (ht : t < x.main + 1)
    (hpc : pc t ≠ .at .ended) (hre : g.running = false → g'.running = false) (hen : ∀ u, g'.ended u = true → g.ended u = true ∨ (u = t ∧ p' = .at .ended))
    (hen' : ∀ u, g.ended u = true → g'.ended u = true)
    (hal : t = x.main → Stopped p'.here → ∀ u < x.allocators, g'.ended u = true)
    (hde : t = x.main → p'.here = .finished → ∀ u < x.main, g'.ended u = true)
    (hrun : g'.running = false → (t ≠ x.main ∧ g.running = false) ∨ (t = x.main ∧ (p'.here = .joinDealloc ∨ p'.here = .finished)))
    (hdr : Draining p'.here → g'.running = false)
    (hlate : ∀ q i, p' = .call (.pop true) q → Pending b' t i .pop → Before b' i)
    (hseen : x.allocators ≤ t → p'.here = .leave ∨ p'.here = .ended → g'.running = false ∧ Seen b' t)
    (hb : b' = b ∨ ∃ e, b' = b ++ [e] ∧ e.tid = t ∧ (g.running = false → ∀ u bd v, e ≠ .inv u (.push bd v)))
    (hacc : fits → (∀ u, (pc u).here ≠ .threw) → p'.here ≠ .threw → ∀ y, (offered b').count y + (accepted b).count y + (inPush (pc t)).count y =
      (offered b).count y + (accepted b').count y + (inPush p').count y) (hth : (pc t).here ≠ .threw) : EInv x fits b' (upd pc t p') g' where
  ended u hu := by
    rcases hen u hu with h | ⟨rfl, h⟩
    · have h1 := hi.ended u h
      rw [upd_ne _ _ _ (by rintro rfl; exact hpc h1)]
      exact h1
    · simpa using h
  alloc hs := by
    by_cases hm : t = x.main
    · subst hm; simp at hs; exact hal rfl hs
    · rw [upd_ne _ _ _ (Ne.symm hm)] at hs
      exact fun u hu => hen' u (hi.alloc hs u hu)
  dealloc hs := by
    by_cases hm : t = x.main
    · subst hm; simp at hs; exact hde rfl hs
    · rw [upd_ne _ _ _ (Ne.symm hm)] at hs
      exact fun u hu => hen' u (hi.dealloc hs u hu)
  run hr := by
    rcases hrun hr with ⟨h1, h2⟩ | ⟨rfl, h⟩
    · rw [upd_ne _ _ _ (Ne.symm h1)]; exact hi.run h2
    · simpa using h
  drain u hd := by
    by_cases hu : u = t
    · subst hu; simp at hd; exact hdr hd
    · rw [upd_ne _ _ _ hu] at hd; exact hre (hi.drain u hd)
  late u q i hq hp := by
    by_cases hu : u = t
    · subst hu; simp at hq; exact hlate q i hq hp
    · rw [upd_ne _ _ _ hu] at hq
      rcases hb with rfl | ⟨e, rfl, he, hno⟩
      · exact hi.late u q i hq hp
      · have := hi.late u q i hq (pending_unsnoc hp (by rw [he]; exact Ne.symm hu))
        exact this.snoc (hno (hi.drain u (by rw [hq]; trivial)))
  seen u hu h := by
    by_cases hut : u = t
    · subst hut; simp at h; exact hseen hu h
    · rw [upd_ne _ _ _ hut] at h
      obtain ⟨h1, h2⟩ := hi.seen u hu h
      refine ⟨hre h1, ?_⟩
      rcases hb with rfl | ⟨e, rfl, he, hno⟩
      · exact h2
      · exact h2.snoc (hno h1)
  acc hf hno y := by
    have h1 : ∀ u, (pc u).here ≠ .threw := by
      intro u
      by_cases hu : u = t
      · subst hu; exact hth
      · have := hno u; rwa [upd_ne _ _ _ hu] at this
    have h2 := hi.acc hf h1 y
    have h3 := hacc hf h1 (by have := hno t; simpa using this) y
    have h4 := tot_upd (f := inPush) (pc := pc) (p := p') y ht
    omega

theorem EInv.step {fits : Prop} {e} (hn : NInv x h pc g) (hi : EInv x fits (rights h) pc g) (hs : TStep x P₁ P₂ t g (pc t) g' p' e)
    (hfit : fits → ∀ i n q, pc t = .call (.push i n) q → e ≠ some (.res t (.inr (.pushed false)))) :
    EInv x fits (rights (h ++ e.toList)) (upd pc t p') g' := by
  have hr := hn.role t
  have hsd := hn.sided t
  have ht : (pc t).here ≠ .absent → t < x.main + 1 := role_le hr
  generalize hp : pc t = p at hs hr hsd ht
  cases hs with
  | @act k bb g' k' hk ha =>
    rw [Option.toList_none, List.append_nil]
    simp only [PC.here] at hr ht
    have hpe : ∀ (k : At) q, (PC.at k : User.PC At (Both.PC P₁ P₂)) = .call (.pop true) q → False := nofun
    cases k with
    | forTest i =>
      simp only [Setup.act, Option.some.injEq, Prod.mk.injEq] at ha
      obtain ⟨rfl, rfl⟩ := ha
      simp only [Role] at hr
      refine hi.assemble (ht nofun) (by rw [hp]; nofun) id (fun u hu => .inl hu) (fun u hu => hu) ?_ ?_ ?_ ?_ (fun q i h => (hpe _ _ h).elim) ?_ (.inl rfl) ?_ (by rw [hp]; nofun)
      · intro hm; simp only [Setup.main] at hm; omega
      · intro hm; simp only [Setup.main] at hm; omega
      · intro h; exact .inl ⟨by simp only [Setup.main]; omega, h⟩
      · simp only [PC.here]; split <;> exact False.elim
      · intro h; omega
      · intro _ _ _ y; rw [hp]; simp [inPush]
    | insert i n =>
      simp only [Setup.act] at ha
      have : g'.running = g.running ∧ g'.ended = g.ended ∧ (k' = .failed ∨ k' = .push i n) := by
        split at ha <;> simp only [Option.some.injEq, Prod.mk.injEq] at ha <;> obtain ⟨rfl, rfl⟩ := ha <;> simp
      obtain ⟨h1, h2, h3⟩ := this
      simp only [Role] at hr
      refine hi.assemble (ht nofun) (by rw [hp]; nofun) (by rw [h1]; exact id) (fun u hu => .inl (by rwa [h2] at hu)) (fun u hu => by rwa [h2]) ?_ ?_ ?_ ?_
        (fun q i h => (hpe _ _ h).elim) ?_ (.inl rfl) ?_ (by rw [hp]; nofun)
      · intro hm; simp only [Setup.main] at hm; omega
      · intro hm; simp only [Setup.main] at hm; omega
      · intro h; exact .inl ⟨by simp only [Setup.main]; omega, by rwa [h1] at h⟩
      · simp only [PC.here]; rcases h3 with rfl | rfl <;> exact False.elim
      · intro h; omega
      · intro _ _ _ y; rw [hp]; simp [inPush]
    | erase l n =>
      simp only [Setup.act] at ha
      have : g'.running = g.running ∧ g'.ended = g.ended ∧ (k' = .failed ∨ k' = .destruct l n) := by
        split at ha <;> simp only [Option.some.injEq, Prod.mk.injEq] at ha <;> obtain ⟨rfl, rfl⟩ := ha <;> simp
      obtain ⟨h1, h2, h3⟩ := this
      simp only [Role] at hr
      refine hi.assemble (ht nofun) (by rw [hp]; nofun) (by rw [h1]; exact id) (fun u hu => .inl (by rwa [h2] at hu)) (fun u hu => by rwa [h2]) ?_ ?_ ?_ ?_
        (fun q i h => (hpe _ _ h).elim) ?_ (.inl rfl) ?_ (by rw [hp]; nofun)
      · intro hm; omega
      · intro hm; omega
      · intro h; exact .inl ⟨by omega, by rwa [h1] at h⟩
      · rw [h1]
        have := hi.drain t
        rw [hp] at this
        simp only [PC.here] at this ⊢
        rcases h3 with rfl | rfl
        · exact False.elim
        · cases l
          · exact False.elim
          · exact fun _ => this trivial
      · simp only [PC.here]; rcases h3 with rfl | rfl <;> simp
      · intro _ _ _ y; rw [hp]; simp [inPush]
    | load =>
      simp only [Role] at hr
      simp only [Setup.act] at ha
      have : g' = g ∧ ∃ l, k' = .pop l ∧ (l = true → g.running = false) := by
        split at ha
        · split at ha
          · cases ha
          · rename_i h1
            simp only [Option.some.injEq, Prod.mk.injEq] at ha; exact ⟨ha.1.symm, _, ha.2.symm, fun _ => by simpa using h1⟩
        · simp only [Option.some.injEq, Prod.mk.injEq] at ha; exact ⟨ha.1.symm, _, ha.2.symm, nofun⟩
      obtain ⟨rfl, l, rfl, hl⟩ := this
      refine hi.assemble (ht nofun) (by rw [hp]; nofun) id (fun u hu => .inl hu) (fun u hu => hu) ?_ ?_ ?_ ?_ (fun q i h => (hpe _ _ h).elim) ?_ (.inl rfl) ?_ (by rw [hp]; nofun)
      · intro hm; omega
      · intro hm; omega
      · intro h; exact .inl ⟨by omega, h⟩
      · cases l
        · exact False.elim
        · exact fun _ => hl rfl
      · simp [PC.here]
      · intro _ _ _ y; rw [hp]; simp [inPush]
    | leave =>
      simp only [Role] at hr
      simp only [Setup.act, Option.some.injEq, Prod.mk.injEq] at ha
      obtain ⟨rfl, rfl⟩ := ha
      refine hi.assemble (ht nofun) (by rw [hp]; nofun) id ?_ ?_ ?_ ?_ ?_ False.elim (fun q i h => (hpe _ _ h).elim) ?_ (.inl rfl) ?_ (by rw [hp]; nofun)
      · intro u hu
        simp only [upd_apply] at hu
        split at hu
        · exact .inr ⟨‹_›, rfl⟩
        · exact .inl hu
      · intro u hu
        simp only [upd_apply]
        split
        · rfl
        · exact hu
      · intro hm; omega
      · intro hm; omega
      · intro h; exact .inl ⟨by omega, h⟩
      · intro h1 _
        exact hi.seen t h1 (.inl (by rw [hp]; rfl))
      · intro _ _ _ y; rw [hp]; simp [inPush]
    | joinAlloc =>
      simp only [Role] at hr
      simp only [Setup.act] at ha
      split at ha
      · rename_i hall
        simp only [Option.some.injEq, Prod.mk.injEq] at ha
        obtain ⟨rfl, rfl⟩ := ha
        refine hi.assemble (ht nofun) (by rw [hp]; nofun) id (fun u hu => .inl hu) (fun u hu => hu) ?_ nofun ?_ False.elim (fun q i h => (hpe _ _ h).elim) ?_ (.inl rfl) ?_ (by rw [hp]; nofun)
        · intro _ _ u hu
          exact List.all_eq_true.1 hall u (by simpa using hu)
        · intro h
          have := hi.run h
          rw [← hr, hp] at this
          simp [PC.here] at this
        · simp [PC.here]
        · intro _ _ _ y; rw [hp]; simp [inPush]
      · cases ha
    | stop =>
      simp only [Role] at hr
      simp only [Setup.act, Option.some.injEq, Prod.mk.injEq] at ha
      obtain ⟨rfl, rfl⟩ := ha
      refine hi.assemble (ht nofun) (by rw [hp]; nofun) (fun _ => rfl) (fun u hu => .inl hu) (fun u hu => hu) ?_ nofun ?_ False.elim (fun q i h => (hpe _ _ h).elim) ?_ (.inl rfl) ?_ (by rw [hp]; nofun)
      · intro _ _ u hu
        exact hi.alloc (by rw [← hr, hp]; trivial) u hu
      · intro h; exact .inr ⟨hr, .inl rfl⟩
      · simp [PC.here]
      · intro _ _ _ y; rw [hp]; simp [inPush]
    | joinDealloc =>
      simp only [Role] at hr
      simp only [Setup.act] at ha
      split at ha
      · rename_i hall
        simp only [Option.some.injEq, Prod.mk.injEq] at ha
        obtain ⟨rfl, rfl⟩ := ha
        have hal := hi.alloc (by rw [← hr, hp]; trivial)
        refine hi.assemble (ht nofun) (by rw [hp]; nofun) id (fun u hu => .inl hu) (fun u hu => hu) ?_ ?_ ?_ False.elim (fun q i h => (hpe _ _ h).elim) ?_ (.inl rfl) ?_ (by rw [hp]; nofun)
        · exact fun _ _ => hal
        · intro _ _ u hu
          by_cases hu' : u < x.allocators
          · exact hal u hu'
          · have := List.all_eq_true.1 hall (u - x.allocators) (by simp only [Setup.main] at hu; simp; omega)
            rwa [show x.allocators + (u - x.allocators) = u by omega] at this
        · intro h; exact .inr ⟨hr, .inr rfl⟩
        · simp [PC.here]
        · intro _ _ _ y; rw [hp]; simp [inPush]
      · cases ha
    | _ => cases ha
  | @callL k o q hk =>
    have hlt : t < x.main + 1 := ht (by rintro h; simp only [PC.here] at h; subst h; cases hk)
    have hne : t ≠ x.main := by
      rintro rfl
      cases k <;> simp only [Setup.ops] at hk <;> cases hk <;> simp only [PC.here, Role, Setup.main] at hr <;> omega
    rw [Option.toList_some, rights_append, rights_inl_inv, List.append_nil]
    refine hi.assemble hlt (by rw [hp]; rintro h; cases h; cases hk) id (fun u hu => .inl hu) (fun u hu => hu) (fun h => absurd h hne) (fun h => absurd h hne)
      (fun h => .inl ⟨hne, h⟩) ?_ ?_ ?_ (.inl rfl) ?_ (by rw [hp]; rintro h; simp only [PC.here] at h; subst h; cases hk)
    · have := hi.drain t; rw [hp] at this; exact this
    · intro q' i h; cases h; cases hk
    · rintro h (h1 | h1) <;> simp only [PC.here] at h1 <;> subst h1 <;> cases hk
    · intro _ _ _ y; rw [hp]
      cases k <;> simp only [Setup.ops] at hk <;> cases hk <;> simp [inPush]
  | @callR k o q hk =>
    have hlt : t < x.main + 1 := ht (by rintro h; simp only [PC.here] at h; subst h; cases hk)
    have hne : t ≠ x.main := by
      rintro rfl
      cases k <;> simp only [Setup.ops] at hk <;> cases hk <;> simp only [PC.here, Role, Setup.main] at hr <;> omega
    rw [Option.toList_some, rights_append, rights_inr_inv]
    have hno : g.running = false → ∀ u bd v, (Event.inv t o : Event (Queue.Op Nat) (Queue.Ret Nat)) ≠ .inv u (.push bd v) := by
      intro hrun u bd v heq
      cases heq
      cases k <;> simp only [Setup.ops] at hk <;> cases hk
      have := hi.over hrun (t := t) hr
      rw [hp] at this; cases this
    refine hi.assemble hlt (by rw [hp]; rintro h; cases h; cases hk) id (fun u hu => .inl hu) (fun u hu => hu) (fun h => absurd h hne) (fun h => absurd h hne)
      (fun h => .inl ⟨hne, h⟩) ?_ ?_ ?_ (.inr ⟨_, rfl, rfl, hno⟩) ?_ (by rw [hp]; rintro h; simp only [PC.here] at h; subst h; cases hk)
    · have := hi.drain t; rw [hp] at this; exact this
    · intro q' i hq hpe
      cases hq
      cases hk
      have hrun : g.running = false := hi.drain t (by rw [hp]; trivial)
      obtain ⟨rfl, _⟩ := pending_snoc_eq hpe rfl
      intro k u bd v hkv
      rw [getElem?_snoc] at hkv
      split at hkv
      · rcases hn.calling.split k u _ hkv with h1 | ⟨j, r, h1⟩
        · have h2 := hn.calling.who h1
          have h3 : u < x.allocators := by
            have hru := hn.role u
            cases hpu : pc u with
            | «at» k => rw [hpu] at h2; cases h2
            | call k q =>
              rw [hpu] at h2 hru
              cases k <;> simp [Tester.callR, Setup.ops] at h2
              exact hru
          have h4 := hi.over hrun h3
          rw [h4] at h2; cases h2
        · exact ⟨j, r, h1.snoc, h1.lt.2⟩
      · split at hkv <;> cases hkv
    · rintro h (h1 | h1) <;> simp only [PC.here] at h1 <;> subst h1 <;> cases hk
    · intro _ _ _ y; rw [hp, offered_snoc_inv, accepted_snoc_inv, List.count_append]
      cases k <;> simp only [Setup.ops] at hk <;> cases hk
      · simp [inPush, Queue.offeredBy]; omega
      · simp [inPush, Queue.offeredBy]
  | @inL k q q' =>
    obtain ⟨o, hk⟩ := hsd
    have hlt : t < x.main + 1 := ht (by rintro h; simp only [PC.here] at h; subst h; cases hk)
    have hne : t ≠ x.main := by
      rintro rfl
      cases k <;> simp only [Setup.ops] at hk <;> cases hk <;> simp only [PC.here, Role, Setup.main] at hr <;> omega
    rw [Option.toList_none, List.append_nil]
    refine hi.assemble hlt (by rw [hp]; nofun) id (fun u hu => .inl hu) (fun u hu => hu) (fun h => absurd h hne) (fun h => absurd h hne)
      (fun h => .inl ⟨hne, h⟩) ?_ ?_ ?_ (.inl rfl) ?_ (by rw [hp]; rintro h; simp only [PC.here] at h; subst h; cases hk)
    · have := hi.drain t; rw [hp] at this; exact this
    · intro q' i h; cases h; cases hk
    · rintro h (h1 | h1) <;> simp only [PC.here] at h1 <;> subst h1 <;> cases hk
    · intro _ _ _ y; rw [hp]
      cases k <;> simp only [Setup.ops] at hk <;> cases hk <;> simp [inPush]
  | @inR k q q' =>
    obtain ⟨o, hk⟩ := hsd
    have hlt : t < x.main + 1 := ht (by rintro h; simp only [PC.here] at h; subst h; cases hk)
    have hne : t ≠ x.main := by
      rintro rfl
      cases k <;> simp only [Setup.ops] at hk <;> cases hk <;> simp only [PC.here, Role, Setup.main] at hr <;> omega
    rw [Option.toList_none, List.append_nil]
    refine hi.assemble hlt (by rw [hp]; nofun) id (fun u hu => .inl hu) (fun u hu => hu) (fun h => absurd h hne) (fun h => absurd h hne)
      (fun h => .inl ⟨hne, h⟩) ?_ ?_ ?_ (.inl rfl) ?_ (by rw [hp]; rintro h; simp only [PC.here] at h; subst h; cases hk)
    · have := hi.drain t; rw [hp] at this; exact this
    · intro q' i h hpe; cases h; exact hi.late t _ i hp hpe
    · rintro h (h1 | h1) <;> simp only [PC.here] at h1 <;> subst h1 <;> cases hk
    · intro _ _ _ y; rw [hp]
      cases k <;> simp only [Setup.ops] at hk <;> cases hk <;> simp [inPush]
  | @finL k q r =>
    obtain ⟨o, hk⟩ := hsd
    have hlt : t < x.main + 1 := ht (by rintro h; simp only [PC.here] at h; subst h; cases hk)
    have hne : t ≠ x.main := by
      rintro rfl
      cases k <;> simp only [Setup.ops] at hk <;> cases hk <;> simp only [PC.here, Role, Setup.main] at hr <;> omega
    rw [Option.toList_some, rights_append, rights_inl_res, List.append_nil]
    refine hi.assemble hlt (by rw [hp]; nofun) id (fun u hu => .inl hu) (fun u hu => hu) (fun h => absurd h hne) (fun h => absurd h hne)
      (fun h => .inl ⟨hne, h⟩) ?_ nofun ?_ (.inl rfl) ?_ (by rw [hp]; rintro h; simp only [PC.here] at h; subst h; cases hk)
    · have hd := hi.drain t
      rw [hp] at hd
      simp only [PC.here] at hd ⊢
      cases k <;> simp only [Setup.ops] at hk <;> cases hk <;> unfold next <;> (repeat' split) <;> simp_all [Draining]
    · intro h1 h2
      simp only [PC.here] at h2
      cases k <;> simp only [Setup.ops] at hk <;> cases hk <;> unfold next at h2 <;> (repeat' split at h2) <;> simp_all
    · intro _ _ _ y; rw [hp]
      cases k <;> simp only [Setup.ops] at hk <;> cases hk <;> simp [inPush]
  | @finR k q r =>
    obtain ⟨o, hk⟩ := hsd
    have hlt : t < x.main + 1 := ht (by rintro h; simp only [PC.here] at h; subst h; cases hk)
    have hne : t ≠ x.main := by
      rintro rfl
      cases k <;> simp only [Setup.ops] at hk <;> cases hk <;> simp only [PC.here, Role, Setup.main] at hr <;> omega
    have hcr' : Tester.callR x (pc t) = some o := by rw [hp]; simp [Tester.callR, hk]
    obtain ⟨i, hpe⟩ := hn.calling.busy t o hcr'
    rw [Option.toList_some, rights_append, rights_inr_res]
    refine hi.assemble hlt (by rw [hp]; nofun) id (fun u hu => .inl hu) (fun u hu => hu) (fun h => absurd h hne) (fun h => absurd h hne)
      (fun h => .inl ⟨hne, h⟩) ?_ nofun ?_ (.inr ⟨_, rfl, rfl, fun _ _ _ _ => nofun⟩) ?_ (by rw [hp]; rintro h; simp only [PC.here] at h; subst h; cases hk)
    · have hd := hi.drain t
      rw [hp] at hd
      simp only [PC.here] at hd ⊢
      cases k <;> simp only [Setup.ops] at hk <;> cases hk
      · cases r <;> exact False.elim
      · rename_i l
        cases r with
        | popped v =>
          cases v <;> cases l
          · exact False.elim
          · exact False.elim
          · exact False.elim
          · exact fun _ => hd trivial
        | _ => exact False.elim
    · intro h1 h2
      simp only [PC.here] at h2
      have : k = .pop true ∧ r = .popped none := by
        cases k <;> simp only [Setup.ops] at hk <;> cases hk <;> unfold next at h2 <;> (repeat' split at h2) <;> simp_all
      obtain ⟨rfl, rfl⟩ := this
      cases hk
      refine ⟨hi.drain t (by rw [hp]; trivial), i, _, ?_, hpe.returned _, (hi.late t _ i hp hpe).snoc (fun _ _ _ => nofun)⟩
      rw [getElem?_snoc, if_pos (lt_of_getElem? hpe.1)]
      exact hpe.1
    · intro hf _ hth y
      rw [hp, offered_snoc_res, accepted_snoc_res hpe]
      cases k <;> simp only [Setup.ops] at hk <;> cases hk
      · rename_i i n
        have hf := hfit hf i n _ hp
        cases r with
        | pushed ok =>
          cases ok
          · exact absurd rfl hf
          · simp [inPush, Queue.pushedBy]; omega
        | _ => exact absurd rfl hth
      · rw [show Queue.pushedBy (.pop : Queue.Op Nat) r = none by cases r <;> rfl]
        simp [inPush]

end Verif.Freelist.Tester
