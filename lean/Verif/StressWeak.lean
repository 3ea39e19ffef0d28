import Verif.StressEnd
import Verif.ExampleWeak

/-!
# The stress tests under release/acquire memory: what the last `pop` of a reader has seen

No further code of /repo is modelled here. The container machine has a clock for every thread (what the thread knows of each thread) and a list of released clocks.
-/

namespace Verif.Stress
open Lin User
open Verif.Example (quiet Late)

variable {S P Ch O R O' R' : Type}

/-- A container machine with clocks, for the stress test: a writer releases its clock (`post`) by incrementing `writers_finished`; a reader that reads `writer_threads`
acquires (`wait k`) the clocks released by all writers. -/
structure Clocked (m : Mach S P Ch O R) (x : Setup Ch R) (post : Ch) (wait : Nat → Ch) (clock : S → Nat → Nat → Nat) (posted : S → List (Nat → Nat))
    (evc : Event O R → Nat → Nat) : Prop where
  other : ∀ t s p ch s' p' e, m.step t s p ch = some (s', p', e) → ∀ u, u ≠ t → clock s' u = clock s u
  mono : ∀ t s p ch s' p' e, m.step t s p ch = some (s', p', e) → ∀ u, clock s t u ≤ clock s' t u
  event : ∀ t s p ch s' p' e, m.step t s p ch = some (s', p', some e) → evc e = clock s' t
  inside : ∀ t s p ch s' p' e, p ≠ m.idle → m.step t s p ch = some (s', p', e) → posted s' = posted s
  call : ∀ k ch, (script x).calls k = some ch → ∀ t s s' p' e, m.step t s m.idle ch = some (s', p', e) → posted s' = posted s
  posting : ∀ t s s' p' e, m.step t s m.idle post = some (s', p', e) → posted s' = posted s ++ [clock s' t]
  waiting : ∀ t s k s' p' e, m.step t s m.idle (wait k) = some (s', p', e) →
    posted s' = posted s ∧ ∃ v, (posted s)[k]? = some v ∧ ∀ u, v u ≤ clock s' t u
  exits : x.exit = [post]
  sees : x.see = (List.range x.writers).map wait

/-- `v` knows all events of threads below `n`. -/
def Cov (n : Nat) (evc : Event O R → Nat → Nat) (h : History O R) (v : Nat → Nat) : Prop :=
  ∀ e ∈ h, e.tid < n → evc e e.tid ≤ v e.tid

/-- The event at position `i` knows all events of threads below `n`. -/
def CovAt (n : Nat) (evc : Event O R → Nat → Nat) (h : History O R) (i : Nat) : Prop :=
  ∃ f, h[i]? = some f ∧ Cov n evc h (evc f)

structure WInv (x : Setup Ch R) (push : Nat → O') (pop : O') (rpop : R' → Option (Option Nat)) (so : O → O') (sr : R → R')
    (clock : S → Nat → Nat → Nat) (posted : S → List (Nat → Nat)) (evc : Event O R → Nat → Nat) (h : History O R)
    (C : MConf (S × Vars) (User.PC At P)) : Prop where
  ev : ∀ e ∈ h, evc e e.tid ≤ clock C.s.1 e.tid e.tid
  posts : (posted C.s.1).length = C.s.2.finished
  exited : ∀ t < x.writers, isDone (places C t) = 1 → ∃ v ∈ posted C.s.1, ∀ e ∈ h, e.tid = t → evc e t ≤ v t
  past : ∀ t, Past (places C t) → Cov x.writers evc h (clock C.s.1 t)
  late : ∀ t p, C.pc t = .call (.pop true) p → ∀ i o, Pending (h.map (Example.strip so sr)) t i o → CovAt x.writers evc h i
  final : ∀ t, x.writers ≤ t → isDone (places C t) = 1 →
    ∃ (i j : Nat) (r : R'), (h.map (Example.strip so sr))[i]? = some (.inv t pop) ∧ Returned (h.map (Example.strip so sr)) i j r ∧ rpop r = some none ∧
      Late push (h.map (Example.strip so sr)) i ∧ CovAt x.writers evc h i

section
variable {m : Mach S P Ch O R} {x : Setup Ch R} {so : O → O'} {sr : R → R'} {push : Nat → O'} {pop : O'} {rpush : R' → Option Bool}
  {rpop : R' → Option (Option Nat)} {put get : O' → R' → List Nat} {n : Nat}
  {ok : S → P → Ch → Prop} {s : S} {h : History O R} {C : MConf (S × Vars) (User.PC At P)} {Sp : Spec O' R'} {val : Sp.State → List Nat}
  {hb : History O R → Nat → Nat → Prop} {post : Ch} {wait : Nat → Ch} {clock : S → Nat → Nat → Nat} {posted : S → List (Nat → Nat)} {evc : Event O R → Nat → Nat}

theorem Cov.mono {v w : Nat → Nat} (hc : Cov n evc h v) (hle : ∀ u, v u ≤ w u) : Cov n evc h w :=
  fun e he ht => Nat.le_trans (hc e he ht) (hle _)

theorem Cov.append {v : Nat → Nat} (hc : Cov n evc h v) {l : History O R} (hl : ∀ e ∈ l, n ≤ e.tid) : Cov n evc (h ++ l) v := by
  intro e he ht
  rcases List.mem_append.1 he with he | he
  · exact hc e he ht
  · exact absurd (hl e he) (by omega)

theorem CovAt.append {i : Nat} (hc : CovAt n evc h i) {l : History O R} (hl : ∀ e ∈ l, n ≤ e.tid) : CovAt n evc (h ++ l) i := by
  obtain ⟨f, h1, h2⟩ := hc
  exact ⟨f, by rw [List.getElem?_append_left (lt_of_getElem? h1)]; exact h1, h2.append hl⟩

/-- Several acquisitions. -/
theorem Clocked.waits (hc : Clocked m x post wait clock posted evc) {t : Nat} {l : List Nat} {s s' : S} (hq : quiet m t s (l.map wait) = some s') :
    (∀ u, u ≠ t → clock s' u = clock s u) ∧ (∀ u, clock s t u ≤ clock s' t u) ∧ posted s' = posted s ∧
      ∀ k ∈ l, ∃ v, (posted s)[k]? = some v ∧ ∀ u, v u ≤ clock s' t u := by
  induction l generalizing s with
  | nil => cases hq; exact ⟨fun _ _ => rfl, fun _ => Nat.le_refl _, rfl, nofun⟩
  | cons k l ih =>
    simp only [List.map_cons, quiet] at hq
    split at hq
    · rename_i s₁ p₁ h1
      obtain ⟨h2, h3, h4, h5⟩ := ih hq
      obtain ⟨h6, v, h7, h8⟩ := hc.waiting _ _ _ _ _ _ h1
      refine ⟨fun u hu => (h2 u hu).trans (hc.other _ _ _ _ _ _ _ h1 u hu), fun u => Nat.le_trans (hc.mono _ _ _ _ _ _ _ h1 u) (h3 u), h4.trans h6, ?_⟩
      intro k' hk'
      rcases List.mem_cons.1 hk' with rfl | hk'
      · exact ⟨v, h7, fun u => Nat.le_trans (h8 u) (h3 u)⟩
      · rw [← h6]; exact h5 k' hk'
    · cases hq

/-- What a step does to clocks. -/
structure Ticks (clock : S → Nat → Nat → Nat) (posted : S → List (Nat → Nat)) (evc : Event O R → Nat → Nat) (t : Nat) (s s' : S) (k : At)
    (e : Option (Event O R)) : Prop where
  other : ∀ u, u ≠ t → clock s' u = clock s u
  mono : ∀ u, clock s t u ≤ clock s' t u
  event : ∀ ev, e = some ev → evc ev = clock s' t ∧ ev.tid = t ∧ isDone k = 0
  posts : ∃ l, posted s' = posted s ++ l

theorem ticks (hpl : Plays m (script x) ok) (hc : Clocked m x post wait clock posted evc) {t s g p ch s' g' p' e}
    (hs : Trans m (script x) t s g p ch s' g' p' e) (hb : ∀ a q, p = .call a q → q ≠ m.idle ∧ (script x).calls a ≠ none) :
    Ticks clock posted evc t s s' p.here e := by
  have one : ∀ {q ch q' k}, m.step t s q ch = some (s', q', e) → (∀ ev, e = some ev → ev.tid = t) → (∃ l, posted s' = posted s ++ l) →
      (∀ ev, e = some ev → isDone k = 0) → Ticks clock posted evc t s s' k e := by
    intro q ch q' k h1 h2 h3 h4
    refine ⟨hc.other _ _ _ _ _ _ _ h1, hc.mono _ _ _ _ _ _ _ h1, ?_, h3⟩
    rintro ev rfl
    exact ⟨hc.event _ _ _ _ _ _ _ h1, h2 _ rfl, h4 _ rfl⟩
  have eq : ∀ {l}, l = posted s → ∃ l', l = posted s ++ l' := fun h => ⟨[], by simp [h]⟩
  have hd : ∀ {k}, (script x).calls k ≠ none → isDone k = 0 := by
    intro k hk
    rcases calls_cases hk with ⟨i, v, rfl⟩ | ⟨l, rfl⟩ <;> rfl
  cases hs with
  | call hk h1 =>
    obtain ⟨_, o, rfl⟩ := hpl.call _ _ hk _ _ _ _ _ h1
    exact one h1 (by rintro _ ⟨⟩; rfl) (eq (hc.call _ _ hk _ _ _ _ _ h1)) (fun _ _ => hd (by rw [PC.here, hk]; simp))
  | act _ ha hq =>
    have ha := acts_of_act ha
    cases ha with
    | report =>
      rw [hc.exits] at hq
      obtain ⟨_, h1⟩ := Example.quiet_single hq
      exact one h1 nofun ⟨_, hc.posting _ _ _ _ _ h1⟩ nofun
    | see h1 =>
      rw [hc.sees] at hq
      obtain ⟨h2, h3, h4, -⟩ := hc.waits hq
      exact ⟨h2, h3, nofun, eq h4⟩
    | _ => cases hq; exact ⟨fun _ _ => rfl, fun _ => Nat.le_refl _, nofun, ⟨[], by simp⟩⟩
  | inside h1 _ =>
    have h2 := hb _ _ rfl
    refine one h1 ?_ (eq (hc.inside _ _ _ _ _ _ _ h2.1 h1)) (fun _ _ => hd h2.2)
    rcases hpl.step _ _ _ _ _ _ _ h2.1 h1 with ⟨rfl, _⟩ | ⟨r, rfl, _⟩
    · nofun
    · rintro _ ⟨⟩; rfl
  | finish h1 =>
    have h2 := hb _ _ rfl
    refine one h1 ?_ (eq (hc.inside _ _ _ _ _ _ _ h2.1 h1)) (fun _ _ => hd h2.2)
    rcases hpl.step _ _ _ _ _ _ _ h2.1 h1 with ⟨h3, _⟩ | ⟨r, h3, _⟩
    · cases h3
    · cases h3; rintro _ ⟨⟩; rfl

theorem WInv.initial (s : S) (h0 : posted s = []) : WInv x push pop rpop so sr clock posted evc [] ⟨(s, Vars.init), fun t => (.at (start x t) : User.PC At P)⟩ := by
  have hs : ∀ t, start x t = .forTest 0 ∨ start x t = .pop false ∨ start x t = .joinWriters ∨ start x t = .absent := by
    intro t
    simp only [start]
    split
    · simp
    · split
      · simp
      · split <;> simp
  refine ⟨nofun, by rw [h0]; rfl, ?_, ?_, nofun, ?_⟩
  · intro t _ h
    rcases hs t with h1 | h1 | h1 | h1 <;> simp [places, PC.here, h1, isDone] at h
  · intro t h
    rcases hs t with h1 | h1 | h1 | h1 <;> simp [places, PC.here, h1, Past] at h
  · intro t _ h
    rcases hs t with h1 | h1 | h1 | h1 <;> simp [places, PC.here, h1, isDone] at h

theorem WInv.step (hpl : Plays m (script x) ok) (hrd : Reads m x so sr push pop rpush rpop put get) (hc : Clocked m x post wait clock posted evc)
    (hv : VInv x (places C) C.s.2) (hh : HInv x push pop rpush rpop put get (h.map (Example.strip so sr)) (places C) C.pc C.s.2)
    (htd : Tidy m (script x) (opAt push pop) (h.map (Example.strip so sr)) C)
    (hw : WInv x push pop rpop so sr clock posted evc h C) {t : Nat} {ch σ' p' e}
    (hs : (mach m (script x) .absent).step t C.s (C.pc t) ch = some (σ', p', e)) :
    WInv x push pop rpop so sr clock posted evc (h ++ e.toList) ⟨σ', upd C.pc t p'⟩ := by
  have hmw : x.main = x.writers + x.readers := rfl
  have hs' := trans_of_step hs
  obtain ⟨s₂, g₂⟩ := σ'
  simp only at hs'
  have htk := ticks hpl hc hs' (fun a q hq => ⟨(htd.busy t a q hq).1, (htd.busy t a q hq).2.1⟩)
  have hle : ∀ u v, clock C.s.1 u v ≤ clock s₂ u v := by
    intro u v
    by_cases hu : u = t
    · subst hu; exact htk.mono v
    · rw [htk.other u hu]; exact Nat.le_refl _
  have hnew : ∀ ev ∈ e.toList, evc ev = clock s₂ t ∧ ev.tid = t ∧ isDone (places C t) = 0 := by
    intro ev hev
    cases e with
    | none => simp at hev
    | some e => simp at hev; subst hev; exact htk.event _ rfl
  obtain ⟨ps, hps⟩ := htk.posts
  have hfar : C.s.2.finished = x.writers → ∀ ev ∈ e.toList, x.writers ≤ ev.tid := by
    intro h1 ev hev
    obtain ⟨_, h2, h3⟩ := hnew ev hev
    rw [h2]
    refine Nat.not_lt.1 fun h4 => ?_
    have := hv.all_done h1 h4
    omega
  have hev : ∀ ev ∈ h ++ e.toList, evc ev ev.tid ≤ clock s₂ ev.tid ev.tid := by
    intro ev he
    rcases List.mem_append.1 he with he | he
    · exact Nat.le_trans (hw.ev ev he) (hle _ _)
    · rw [(hnew ev he).1, (hnew ev he).2.1]; exact Nat.le_refl _
  have hpast : Past (places C t) → Cov x.writers evc (h ++ e.toList) (clock s₂ t) := fun h1 =>
    ((hw.past t h1).mono (hle t)).append (hfar (hv.past t (.inl h1)))
  have hstrip : (h ++ e.toList).map (Example.strip so sr) = h.map (Example.strip so sr) ++ (e.map (Example.strip so sr)).toList := by
    rw [List.map_append]; cases e <;> rfl
  have hpush : C.s.2.finished = x.writers → ∀ i, Late push (h.map (Example.strip so sr)) i → Late push (h.map (Example.strip so sr) ++ (e.map (Example.strip so sr)).toList) i := by
    intro hd i h4
    cases he : e with
    | none => simpa using h4
    | some ev =>
      refine h4.snoc fun w v heq => ?_
      have h5 := hfar hd ev (by simp [he])
      have h6 : C.pc t = C.pc t := rfl
      subst he
      generalize hp : C.pc t = p at hs' h6
      have hH : places C t = p.here := by simp only [places]; rw [hp]
      have hr := hv.role t
      rw [hH] at hr
      have h8 := (hnew ev (by simp)).2.1
      cases hs' with
      | @call k b ch s' q e hk h1 =>
        obtain ⟨o, ho, ho2⟩ := hrd.user.call _ _ hk _ _ _ _ _ h1
        cases ho
        simp only [Example.strip, ho2, Event.inv.injEq] at heq
        rcases calls_cases (x := x) (k := k) (by rw [hk]; simp) with ⟨i, v, rfl⟩ | ⟨l, rfl⟩
        · simp only [PC.here, Role] at hr; omega
        · exact hrd.ne v heq.2.symm
      | inside h1 h2 =>
        rcases hpl.step _ _ _ _ _ _ _ (htd.busy t _ _ hp).1 h1 with ⟨h3, _⟩ | ⟨r, h3, _⟩
        · cases h3
        · cases h3; cases heq
      | finish h1 => cases heq
  have hmk : ((posted s₂).length = g₂.finished ∧
      (t < x.writers → isDone p'.here = 1 → isDone (places C t) = 1 ∨ ∃ v ∈ posted s₂, v = clock s₂ t) ∧
      (Past p'.here → Cov x.writers evc (h ++ e.toList) (clock s₂ t)) ∧
      (∀ q, p' = .call (.pop true) q → (∃ q', C.pc t = .call (.pop true) q' ∧ e = none) ∨ (∃ ev, e = some ev)) ∧
      (x.writers ≤ t → isDone p'.here = 1 → (isDone (places C t) = 1 ∧ e = none) ∨
        ∃ q r, C.pc t = .call (.pop true) q ∧ e = some (.res t r) ∧ rpop (sr r) = some none)) →
      WInv x push pop rpop so sr clock posted evc (h ++ e.toList) ⟨(s₂, g₂), upd C.pc t p'⟩ := by
    rintro ⟨a1, a2, a3, a4, a5⟩
    refine ⟨hev, a1, ?_, ?_, ?_, ?_⟩
    · intro u hu hp
      rw [places_upd] at hp
      have old : isDone (places C u) = 1 → ∃ v ∈ posted s₂, ∀ ev ∈ h ++ e.toList, ev.tid = u → evc ev u ≤ v u := by
        intro h1
        obtain ⟨v, hv1, h2⟩ := hw.exited u hu h1
        refine ⟨v, by rw [hps]; simp [hv1], fun ev he ht => ?_⟩
        rcases List.mem_append.1 he with he | he
        · exact h2 ev he ht
        · obtain ⟨_, h3, h4⟩ := hnew ev he
          rw [← h3, ht] at h4; omega
      by_cases hut : u = t
      · subst hut
        rw [upd_self] at hp
        rcases a2 hu hp with h1 | ⟨v, hv1, rfl⟩
        · exact old h1
        · exact ⟨_, hv1, fun ev he ht => by have := hev ev he; rw [ht] at this; exact this⟩
      · rw [upd_ne _ _ _ hut] at hp
        exact old hp
    · intro u hp
      rw [places_upd] at hp
      by_cases hut : u = t
      · subst hut
        rw [upd_self] at hp
        exact a3 hp
      · rw [upd_ne _ _ _ hut] at hp
        exact ((hw.past u hp).mono (hle u)).append (hfar (hv.past u (.inl hp)))
    · intro u q hp i o hpe
      rw [hstrip] at hpe
      by_cases hut : u = t
      · subst hut
        simp only [upd_self] at hp
        rcases a4 q hp with ⟨q', h1, rfl⟩ | ⟨ev, rfl⟩
        · simp only [Option.toList_none, List.append_nil, Option.map_none] at hpe ⊢
          exact hw.late u q' h1 i o hpe
        · obtain ⟨hil, -⟩ := pending_snoc_eq (e := Example.strip so sr ev) hpe (by rw [Example.strip_tid]; exact (hnew ev (by simp)).2.1)
          rw [List.length_map] at hil
          subst hil
          refine ⟨ev, by simp, ?_⟩
          rw [(hnew ev (by simp)).1]
          exact a3 (by rw [hp]; rfl)
      · simp only [upd_ne _ _ _ hut] at hp
        have hold : Pending (h.map (Example.strip so sr)) u i o := by
          cases e with
          | none => simpa using hpe
          | some ev => exact pending_unsnoc (e := Example.strip so sr ev) hpe (by rw [Example.strip_tid, (hnew ev (by simp)).2.1]; exact Ne.symm hut)
        exact (hw.late u q hp i o hold).append (hfar (hv.past u (.inl (by simp only [places]; rw [hp]; rfl))))
    · intro u hu hp
      rw [places_upd] at hp
      rw [hstrip]
      have keep : isDone (places C u) = 1 → 
          ∃ (i j : Nat) (r : R'), (h.map (Example.strip so sr) ++ (e.map (Example.strip so sr)).toList)[i]? = some (.inv u pop) ∧
            Returned (h.map (Example.strip so sr) ++ (e.map (Example.strip so sr)).toList) i j r ∧ rpop r = some none ∧
            Late push (h.map (Example.strip so sr) ++ (e.map (Example.strip so sr)).toList) i ∧ CovAt x.writers evc (h ++ e.toList) i := by
        intro h0
        have hd := hv.past u (.inr ⟨hu, h0⟩)
        obtain ⟨i, j, r, h1, h2, h3, h4, h5⟩ := hw.final u hu h0
        refine ⟨i, j, r, ?_, ?_, h3, hpush hd i h4, h5.append (hfar hd)⟩
        · rw [List.getElem?_append_left (lt_of_getElem? h1)]; exact h1
        · cases e with
          | none => simpa using h2
          | some ev => exact h2.snoc
      by_cases hut : u = t
      · subst hut
        rw [upd_self] at hp
        rcases a5 hu hp with ⟨h1, -⟩ | ⟨q, r, h1, rfl, h3⟩
        · exact keep h1
        · obtain ⟨_, _, i, hpe⟩ := htd.busy u _ _ h1
          have hil := lt_of_getElem? hpe.1
          have hd := hv.past u (.inl (by simp only [places]; rw [h1]; rfl))
          refine ⟨i, (h.map (Example.strip so sr)).length, sr r, ?_, hpe.returned _, h3, hpush hd i (hh.late u _ h1 i _ hpe), (hw.late u q h1 i _ hpe).append (hfar hd)⟩
          rw [List.getElem?_append_left hil]; exact hpe.1
      · rw [upd_ne _ _ _ hut] at hp
        exact keep hp
  have hr := hv.role t
  generalize hp : C.pc t = p at hs'
  have hH : places C t = p.here := by simp only [places]; rw [hp]
  rw [hH] at hr hpast hmk
  cases hs' with
  | @call k b ch s' q e hk h1 =>
    obtain ⟨_, o, rfl⟩ := hpl.call _ _ hk _ _ _ _ _ h1
    refine hmk ⟨by rw [hc.call _ _ hk _ _ _ _ _ h1]; exact hw.posts, fun _ h2 => .inl h2, hpast, fun _ _ => .inr ⟨_, rfl⟩, ?_⟩
    intro _ h2
    have := (hnew (.inv t o) (by simp)).2.2
    rw [hH] at this
    simp only [PC.here] at h2 this
    omega
  | @act k b g' l k' s' hk ha hq =>
    have ha := acts_of_act ha
    simp only [PC.here] at hpast hr hmk ⊢
    simp only [Option.toList_none, List.append_nil] at hpast hmk ⊢
    cases ha with
    | report =>
      rw [hc.exits] at hq
      obtain ⟨_, h1⟩ := Example.quiet_single hq
      have h3 := hc.posting _ _ _ _ _ h1
      simp only [Role] at hr
      refine hmk ⟨?_, fun _ _ => .inr ⟨_, by rw [h3]; simp, rfl⟩, by simp [Past], nofun, by omega⟩
      rw [h3, List.length_append, hw.posts]; rfl
    | see h1 =>
      rw [hc.sees] at hq
      obtain ⟨-, -, h4, h5⟩ := hc.waits hq
      refine hmk ⟨by rw [h4]; exact hw.posts, by simp [isDone], ?_, nofun, by simp [isDone]⟩
      intro _ ev he ht
      obtain ⟨v, hv1, h6⟩ := hw.exited _ ht (hv.all_done h1 ht)
      obtain ⟨k, hk, h7⟩ := List.getElem_of_mem hv1
      obtain ⟨w, h8, h9⟩ := h5 k (by have := hw.posts; simp; omega)
      rw [List.getElem?_eq_getElem hk, h7] at h8
      cases h8
      exact Nat.le_trans (h6 ev he rfl) (h9 _)
    | leave =>
      cases hq
      refine hmk ⟨hw.posts, by simp [isDone], by simp [Past], nofun, by simp [isDone]⟩
    | erase | insertD | counted =>
      cases hq
      refine hmk ⟨hw.posts, by simp [isDone], hpast, nofun, by simp [isDone]⟩
    | _ =>
      cases hq
      refine hmk ⟨hw.posts, by simp [isDone], by simp [Past], nofun, by simp [isDone]⟩
  | @inside k q ch s' q' e h1 h2 =>
    have hq := htd.busy t _ _ hp
    rcases hpl.step _ _ _ _ _ _ _ hq.1 h1 with ⟨rfl, _⟩ | ⟨r, rfl, _⟩
    · refine hmk ⟨by rw [hc.inside _ _ _ _ _ _ _ hq.1 h1]; exact hw.posts, fun _ h2 => .inl h2, hpast, ?_, fun _ h2 => .inl ⟨h2, rfl⟩⟩
      rintro q'' h3
      cases h3
      exact .inl ⟨q, hp, rfl⟩
    · exact absurd rfl (h2 _ _)
  | @finish k q ch s' q' u r h1 =>
    have hq := htd.busy t _ _ hp
    have hu : u = t := by
      rcases hpl.step _ _ _ _ _ _ _ hq.1 h1 with ⟨h3, _⟩ | ⟨r, h3, _⟩
      · cases h3
      · cases h3; rfl
    subst hu
    have h3 := hc.inside _ _ _ _ _ _ _ hq.1 h1
    simp only [PC.here] at hr hpast
    rcases next_cases hrd hq.2.1 r with ⟨i, v, rfl, h4⟩ | ⟨l, rfl, h4⟩
    · simp only [Role] at hr
      refine hmk ⟨by rw [h3]; exact hw.posts, ?_, ?_, nofun, by omega⟩
      · rcases h4 with ⟨_, h4⟩ | ⟨_, h4⟩ | ⟨_, h4⟩ <;> simp [PC.here, h4, isDone]
      · rcases h4 with ⟨_, h4⟩ | ⟨_, h4⟩ | ⟨_, h4⟩ <;> simp [PC.here, h4, Past]
    · simp only [Role] at hr
      refine hmk ⟨by rw [h3]; exact hw.posts, by omega, ?_, nofun, ?_⟩
      · rcases h4 with ⟨_, _, h4⟩ | ⟨_, h4⟩ | ⟨_, h4⟩
        · simp only [PC.here, h4]; exact hpast
        · cases l <;> simp [PC.here, h4, Past]
        · simp [PC.here, h4, Past]
      · intro _
        rcases h4 with ⟨_, _, h4⟩ | ⟨h5, h4⟩ | ⟨_, h4⟩
        · simp [PC.here, h4, isDone]
        · cases l
          · simp [PC.here, h4, isDone]
          · intro _; exact .inr ⟨q, r, hp, rfl, h5⟩
        · simp [PC.here, h4, isDone]

theorem Runs.winv (hpl : Plays m (script x) ok) (hrd : Reads m x so sr push pop rpush rpop put get) (law : Law Sp push pop rpop put get val)
    (hlin : Lawful m ok s so sr Sp hb) (hc : Clocked m x post wait clock posted evc) (h0 : posted s = []) (hx : Runs m x ok s h C) :
    WInv x push pop rpop so sr clock posted evc h C := by
  induction hx with
  | refl => exact WInv.initial s h0
  | @step h C t ch σ' p' e hx hs hok ih =>
    obtain ⟨hv, hh⟩ := Runs.inv hpl hrd law hlin hx
    exact ih.step hpl hrd hc hv hh (User.Runs.tidy (sr := sr) hpl hrd.user hx) hs

/-- The return of every `push` happens before the last `pop` of every reader. -/
theorem Runs.seen_ra (hpl : Plays m (script x) ok) (hrd : Reads m x so sr push pop rpush rpop put get) (law : Law Sp push pop rpop put get val)
    (hlin : Lawful m ok s so sr Sp hb) (hc : Clocked m x post wait clock posted evc) (h0 : posted s = []) (hx : Runs m x ok s h C)
    (hm : MainR (places C x.main)) {t : Nat} (ht : x.writers ≤ t) (ht' : t < x.main) :
    Seen so sr push pop rpop (fun j i => j < i ∧ ∃ e f, h[j]? = some e ∧ h[i]? = some f ∧ evc e e.tid ≤ evc f e.tid) h t := by
  obtain ⟨hv, hh⟩ := Runs.inv hpl hrd law hlin hx
  have hw := hx.winv hpl hrd law hlin hc h0
  obtain ⟨i, j, r, h1, h2, h3, h4, f, h5, h6⟩ := hw.final t ht (by rw [hv.mainR hm t ht']; rfl)
  refine ⟨i, j, r, h1, h2, h3, fun k u v hk => ?_⟩
  obtain ⟨j', r', h7, h8⟩ := h4 k u v hk
  refine ⟨j', r', h7, ?_⟩
  have hu : u < x.writers := by
    rcases hh.ops _ _ _ hk with ⟨h, _⟩ | ⟨_, _, h⟩
    · exact h
    · exact absurd h (hrd.ne v)
  obtain ⟨u', o', h9, _, h10, _⟩ := h7
  rw [hk] at h9
  cases h9
  simp only [List.getElem?_map, Option.map_eq_some_iff] at h10
  obtain ⟨e, h11, h12⟩ := h10
  have h13 : e.tid = u := by
    have := congrArg Event.tid h12
    rw [Example.strip_tid] at this; exact this
  exact ⟨h8, e, f, h11, h5, h6 e (List.mem_of_getElem? h11) (by omega)⟩

end

end Verif.Stress
