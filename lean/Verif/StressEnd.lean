import Verif.StressCalls

/-!
# The stress tests: no check fails

No further code of /repo is modelled here.
-/

namespace Verif.Stress
open Lin User
open Verif.Example (total total_upd total_upd_ge total_const total_le total_lt le_total total_bound allPut Late)

variable {S P Ch O R O' R' : Type}

/-- What the specification of the container says about `push` and `pop`: `val` are the elements it holds. -/
structure Law (Sp : Spec O' R') (push : Nat → O') (pop : O') (rpop : R' → Option (Option Nat)) (put get : O' → R' → List Nat)
    (val : Sp.State → List Nat) : Prop where
  init : val Sp.init = []
  pushes : ∀ σ v r σ', Sp.step σ (push v) r σ' → (get (push v) r ++ val σ').Perm (put (push v) r ++ val σ)
  pops : ∀ σ r σ', Sp.step σ pop r σ' → (get pop r ++ val σ').Perm (put pop r ++ val σ)
  empty : ∀ σ r σ', rpop r = some none → Sp.step σ pop r σ' → val σ' = []

section
variable {m : Mach S P Ch O R} {x : Setup Ch R} {so : O → O'} {sr : R → R'} {push : Nat → O'} {pop : O'} {rpush : R' → Option Bool}
  {rpop : R' → Option (Option Nat)} {put get : O' → R' → List Nat} {b : History O' R'} {H : Nat → At} {pc : Nat → User.PC At P} {g : Vars}
  {ok : S → P → Ch → Prop} {s : S} {h : History O R} {C : MConf (S × Vars) (User.PC At P)} {Sp : Spec O' R'} {val : Sp.State → List Nat}
  {hb : History O R → Nat → Nat → Prop}

theorem HInv.fair (hh : HInv x push pop rpush rpop put get b H pc g) (hrd : Reads m x so sr push pop rpush rpop put get)
    (law : Law Sp push pop rpop put get val) {hb : Nat → Nat → Prop} {L} (hl : HbLinearization Sp hb b L) : Fair push rpush get b := by
  have hput : ∀ y ∈ L, ∀ v ∈ put y.2.1 y.2.2, Live push rpush b y.1 v ∧ put y.2.1 y.2.2 = [v] := by
    intro y hy v hv
    obtain ⟨u, hu⟩ := hl.invoked y hy
    rcases hh.ops _ _ _ hu with ⟨_, w, h1, _⟩ | ⟨_, _, h1⟩
    · rw [h1, hrd.put_push] at hv ⊢
      split at hv <;> rename_i h2
      · simp only [List.mem_singleton] at hv
        subst hv
        refine ⟨⟨⟨u, by rw [hu, h1]⟩, fun j r hr => ?_⟩, by rw [if_pos h2]⟩
        obtain ⟨o, ho⟩ := hl.complete _ _ _ hr
        have := List.inj_on_of_nodup_map hl.nodup hy ho rfl
        rw [this] at h2; exact h2
      · simp at hv
    · rw [h1, hrd.put_pop] at hv; simp at hv
  have hnd : (L.flatMap fun y => put y.2.1 y.2.2).Nodup := by
    rw [List.nodup_flatMap]
    constructor
    · intro y hy
      cases hp : put y.2.1 y.2.2 with
      | nil => simp
      | cons v l =>
        have := (hput y hy v (by rw [hp]; simp)).2
        rw [← hp, this]; simp
    · have := hl.nodup
      rw [List.nodup_iff_pairwise_ne, List.pairwise_map] at this
      refine this.imp_of_mem fun hy hz hne => ?_
      intro v hv hw
      exact hne (hh.live _ _ v (hput _ hy v hv).1 (hput _ hz v hw).1)
  obtain ⟨σ, hrun⟩ := hl.legal
  have h1 := Run.perm (push := put) (hand := get) (val := val) (fun σ i o r σ' hm hs => by
    obtain ⟨u, hu⟩ := hl.invoked _ hm
    rcases hh.ops _ _ _ hu with ⟨_, w, h1, _⟩ | ⟨_, _, h1⟩
    · simp only at h1; subst h1; exact law.pushes _ _ _ _ hs
    · simp only at h1; subst h1; exact law.pops _ _ _ hs) hrun
  rw [law.init, List.append_nil] at h1
  have h2 : (allPut get b).Subperm (L.flatMap fun y => put y.2.1 y.2.2) :=
    (subperm_flatMap hl.calls_subperm fun y => get y.2.1 y.2.2).trans ((List.sublist_append_left _ _).subperm.trans h1.subperm)
  refine ⟨?_, fun v hv => ?_⟩
  · obtain ⟨l, h3, h4⟩ := h2
    exact h3.nodup_iff.1 (h4.nodup hnd)
  · have := h2.subset hv
    rw [List.mem_flatMap] at this
    obtain ⟨y, hy, h3⟩ := this
    exact ⟨y.1, (hput y hy v h3).1⟩

/-- Every execution of the container has an order of its calls that respects `hb`. -/
def Lawful (m : Mach S P Ch O R) (ok : S → P → Ch → Prop) (s : S) (so : O → O') (sr : R → R') (Sp : Spec O' R') (hb : History O R → Nat → Nat → Prop) : Prop :=
  ∀ h C, MSteps m ok ⟨s, fun _ => m.idle⟩ h C → HbLinearizable Sp (hb h) (h.map (Example.strip so sr))

/-- Places. -/
def places (C : MConf (S × Vars) (User.PC At P)) : Nat → At := fun t => (C.pc t).here

theorem places_upd (C : MConf (S × Vars) (User.PC At P)) (t : Nat) (σ' : S × Vars) (p' : User.PC At P) :
    places ⟨σ', upd C.pc t p'⟩ = upd (places C) t p'.here := by
  funext u
  simp only [places, upd_apply]
  split <;> rfl

/-- The invariants. -/
theorem Runs.inv (hpl : Plays m (script x) ok) (hrd : Reads m x so sr push pop rpush rpop put get) (law : Law Sp push pop rpop put get val)
    (hlin : Lawful m ok s so sr Sp hb) (hx : Runs m x ok s h C) :
    VInv x (places C) C.s.2 ∧ HInv x push pop rpush rpop put get (h.map (Example.strip so sr)) (places C) C.pc C.s.2 := by
  induction hx with
  | refl => exact ⟨VInv.initial x, HInv.initial x⟩
  | @step h C t ch σ' p' e hx hs hok ih =>
    obtain ⟨hv, hh⟩ := ih
    have htd := User.Runs.tidy (sr := sr) hpl hrd.user hx
    obtain ⟨L, hl⟩ := hlin _ _ (User.Runs.base hpl hrd.user hx)
    have hf := hh.fair hrd law hl
    have hs' := trans_of_step hs
    obtain ⟨s₂, g₂⟩ := σ'
    rw [places_upd]
    simp only at hs' ⊢
    generalize hp : C.pc t = p at hs'
    have hH : places C t = p.here := by simp only [places]; rw [hp]
    cases hs' with
    | @call k b ch s' q e hk h1 =>
      obtain ⟨o, rfl, ho⟩ := hrd.user.call _ _ hk _ _ _ _ _ h1
      have hu : upd (places C) t (PC.call k q).here = places C := by
        have := upd_eq_self (places C) t
        rwa [hH] at this
      rw [hu]
      refine ⟨hv, ?_⟩
      simp only [Option.toList_some, List.map_append, List.map_cons, List.map_nil, Example.strip, ho]
      exact hh.invoke hv hrd.inj hrd.ne htd (fun _ => rfl) rfl hp (by rw [hk]; simp)
    | @act k b g' l k' s' hk ha _ =>
      have ha := acts_of_act ha
      simp only [Option.toList_none, List.append_nil]
      have hH' : places C t = k := hH
      refine ⟨hv.acts (by rw [hH']; exact ha) (fun l v h => hh.erase_mem hv hrd.inj hrd.ne hf h) (fun l v e h => hh.erased t l v e h),
        hh.acts hv hrd.inj hrd.ne hf hp hH' ha⟩
    | @inside k q ch s' q' e h1 h2 =>
      have he : e = none := by
        rcases hpl.step _ _ _ _ _ _ _ (htd.busy t _ _ hp).1 h1 with ⟨rfl, h3⟩ | ⟨r, rfl, _⟩
        · rfl
        · exact absurd rfl (h2 _ _)
      subst he
      have hu : upd (places C) t (PC.call k q').here = places C := by
        have := upd_eq_self (places C) t
        rwa [hH] at this
      rw [hu]
      simp only [Option.toList_none, List.append_nil]
      exact ⟨hv, hh.inside hp⟩
    | @finish k q ch s' q' u r h1 =>
      obtain ⟨hq, hk, i, hpe⟩ := htd.busy t _ _ hp
      have hu : u = t := by
        rcases hpl.step _ _ _ _ _ _ _ hq h1 with ⟨h3, _⟩ | ⟨r, h3, _⟩
        · cases h3
        · cases h3; rfl
      subst hu
      simp only [Option.toList_some, List.map_append, List.map_cons, List.map_nil, Example.strip]
      exact ⟨hv.finish hrd hH hk r, hh.respond hv hrd hp hH hk hpe r⟩

/-- The readers have been joined: the checks at test_common.hpp:147-151 hold. -/
structure Settled (x : Setup Ch R) (put get : O' → R' → List Nat) (b : History O' R') (g : Vars) : Prop where
  data : g.data = []
  pushed : g.push_count = x.writers * x.count
  popped : g.pop_count = x.writers * x.count
  same : (allPut get b).Perm (allPut put b)
  values : (allPut get b).Perm ((List.range (x.writers * x.count)).map (· + 1))

theorem count_range (n a : Nat) : ((List.range n).map (· + 1)).count a = one n a := by
  induction n with
  | zero => simp [one]; omega
  | succ n ih =>
    rw [List.range_succ, List.map_append, List.count_append, ih, one_succ]
    simp [List.count_singleton]

/-- The readers have been joined, and the return of every `push` happens before a `pop` that found the container empty. -/
theorem settled (hrd : Reads m x so sr push pop rpush rpop put get) (law : Law Sp push pop rpop put get val) (hv : VInv x (places C) C.s.2)
    (hh : HInv x push pop rpush rpop put get b (places C) C.pc C.s.2) (htd : Tidy m (script x) (opAt push pop) b C) {hb : Nat → Nat → Prop} {L}
    (hl : HbLinearization Sp hb b L) (hmain : MainR (places C x.main)) {i j t : Nat} {r : R'} (hi : b[i]? = some (.inv t pop)) (hr : Returned b i j r)
    (hrr : rpop r = some none) (hlate : ∀ (k u v : Nat), b[k]? = some (.inv u (push v)) → ∃ j r, Returned b k j r ∧ hb j i) :
    Settled x put get b C.s.2 := by
  have hm : x.main = x.writers + x.readers := rfl
  have hend := hv.mainR hmain
  have hall : ∀ (i t : Nat) (o : O'), b[i]? = some (.inv t o) → ∃ j r, Returned b i j r := by
    intro i t o h
    rcases htd.split i t o h with h1 | h1
    · have ht : t < x.main := by
        rcases hh.ops _ _ _ h with ⟨h2, _⟩ | ⟨_, h2, _⟩
        · omega
        · exact h2
      have h2 := hend t ht
      simp only [places] at h2
      generalize hp : C.pc t = p at h2
      cases p with
      | «at» a => exact absurd h1 (htd.rest t a hp _ _)
      | call a q =>
        simp only [PC.here] at h2
        subst h2
        exact absurd rfl (htd.busy t _ q hp).2.1
    · exact h1
  have hperm : (allPut get b).Perm (allPut put b) := by
    refine HbLinearization.drained (adds := fun o => ∃ v, o = push v) hl val law.init ?_ hall ?_ hi hr (fun σ σ' hs => law.empty _ _ _ hrr hs) ?_
    · intro σ i o r σ' hm hs
      obtain ⟨u, hu⟩ := hl.invoked _ hm
      rcases hh.ops _ _ _ hu with ⟨_, w, h1, _⟩ | ⟨_, _, h1⟩
      · simp only at h1; subst h1; exact law.pushes _ _ _ _ hs
      · simp only at h1; subst h1; exact law.pops _ _ _ hs
    · intro i o r hm ho
      obtain ⟨u, hu⟩ := hl.invoked _ hm
      rcases hh.ops _ _ _ hu with ⟨_, w, h1, _⟩ | ⟨_, _, h1⟩
      · exact absurd ⟨w, h1⟩ ho
      · simp only at h1; subst h1; exact hrd.put_pop _
    · rintro k u o hk ⟨v, rfl⟩
      exact hlate k u v hk
  have hz : ∀ (F : At → Nat), F .ended = 0 → total F (places C) x.main = 0 := by
    intro F hF
    rw [total_const (k := 0)]
    · simp
    · intro u hu; rw [hend u hu]; exact hF
  have hw : ∀ (F : At → Nat) (n : Nat), F .ended = n → total F (places C) x.writers = x.writers * n := by
    intro F n hF
    exact total_const fun u hu => by rw [hend u (by omega)]; exact hF
  have hgen : C.s.2.generator = x.writers * x.count := by rw [hv.gens]; exact hw _ _ rfl
  have hpush : C.s.2.push_count = x.writers * x.count := by rw [hv.pushc]; exact hw _ _ rfl
  have hlen : (allPut put b).length = x.writers * x.count := by rw [hh.puts]; exact hw _ _ rfl
  have hpop : C.s.2.pop_count = x.writers * x.count := by
    have h1 := hh.popc
    rw [hz owed rfl, hperm.length_eq, hlen] at h1
    omega
  have hdeq : ∀ a, (allPut get b).count a = C.s.2.dequeued.count a := by
    intro a
    have := hh.taken a
    rw [hz _ (by rfl)] at this
    exact this
  have hsets : ∀ a, C.s.2.data.count a + C.s.2.dequeued.count a = one (x.writers * x.count) a := by
    intro a
    have := hv.sets a
    rw [hz _ (by rfl), hgen] at this
    exact this
  have hp2 : (C.s.2.data ++ allPut get b).Perm ((List.range (x.writers * x.count)).map (· + 1)) := by
    rw [List.perm_iff_count]
    intro a
    rw [List.count_append, hdeq, count_range, hsets]
  have hdata : C.s.2.data = [] := by
    have := hp2.length_eq
    rw [List.length_append, hperm.length_eq, hlen] at this
    simp at this
    exact this
  refine ⟨hdata, hpush, hpop, hperm, ?_⟩
  rw [hdata] at hp2
  exact hp2

/-- The last `pop` of a reader has seen every `push`. -/
def Seen (so : O → O') (sr : R → R') (push : Nat → O') (pop : O') (rpop : R' → Option (Option Nat)) (hb : Nat → Nat → Prop)
    (h : History O R) (t : Nat) : Prop :=
  ∃ (i j : Nat) (r : R'), (h.map (Example.strip so sr))[i]? = some (.inv t pop) ∧ Returned (h.map (Example.strip so sr)) i j r ∧ rpop r = some none ∧
    ∀ (k u v : Nat), (h.map (Example.strip so sr))[k]? = some (.inv u (push v)) → ∃ j r, Returned (h.map (Example.strip so sr)) k j r ∧ hb j i

/-- No assertion and no check fails. -/
theorem Runs.not_failed (hpl : Plays m (script x) ok) (hrd : Reads m x so sr push pop rpush rpop put get) (law : Law Sp push pop rpop put get val)
    (hlin : Lawful m ok s so sr Sp hb) (hseen : ∀ h C, Runs m x ok s h C → MainR (places C x.main) → ∃ t, Seen so sr push pop rpop (hb h) h t)
    (hx : Runs m x ok s h C) (t : Nat) : C.pc t ≠ .at .failed := by
  have hpoint : ∀ h C, Runs m x ok s h C → MainR (places C x.main) → Settled x put get (h.map (Example.strip so sr)) C.s.2 := by
    intro h C hx hm
    obtain ⟨hv, hh⟩ := hx.inv hpl hrd law hlin
    obtain ⟨t, i, j, r, h1, h2, h3, h4⟩ := hseen h C hx hm
    obtain ⟨L, hl⟩ := hlin _ _ (User.Runs.base hpl hrd.user hx)
    exact settled hrd law hv hh (User.Runs.tidy (sr := sr) hpl hrd.user hx) hl hm h1 h2 h3 h4
  intro hfail
  have hmain : t = x.main := by
    have := (hx.inv hpl hrd law hlin).1.role t
    simp only [places, hfail, PC.here, Role] at this
    exact this
  subst hmain
  have hm0 : start x x.main ≠ .failed := by
    simp only [start]
    split
    · simp
    · split
      · simp
      · split <;> simp
  clear hseen
  induction hx with
  | refl =>
    simp only [PC.at.injEq] at hfail
    exact hm0 hfail
  | @step h C t ch σ' p' e hx hs hok ih =>
    by_cases ht : x.main = t
    · subst ht
      simp only [upd_self] at hfail
      subst hfail
      have hs' := trans_of_step hs
      obtain ⟨s₂, g₂⟩ := σ'
      simp only at hs'
      obtain ⟨hv, hh⟩ := Runs.inv hpl hrd law hlin hx
      have htd := User.Runs.tidy (sr := sr) hpl hrd.user hx
      have hr := hv.role x.main
      have hmw : x.main = x.writers + x.readers := rfl
      generalize hp : C.pc x.main = p at hs'
      have hH : places C x.main = p.here := by simp only [places]; rw [hp]
      rw [hH] at hr
      generalize hq : (PC.at At.failed : User.PC At P) = q at hs'
      cases hs' with
      | call | inside => cases hq
      | act hk ha _ =>
        cases hq
        have ha := acts_of_act ha
        cases ha with
        | insertFail | insertDFail => simp only [PC.here, Role] at hr; omega
        | checkFail h1 => exact h1 (hpoint _ _ hx (by rw [hH]; trivial)).data
        | countsFail h1 =>
          have := hpoint _ _ hx (by rw [hH]; trivial)
          exact h1 ⟨this.pushed.trans this.popped.symm, this.pushed⟩
      | finish h1 =>
        rcases calls_cases (htd.busy _ _ _ hp).2.1 with ⟨i, v, rfl⟩ | ⟨l, rfl⟩ <;> simp only [PC.here, Role] at hr <;> omega
    · simp only [upd_ne _ _ _ ht] at hfail
      exact ih hfail

/-- With `hb` the order of the history: the last `pop` has seen every `push`. -/
theorem Runs.seen (hpl : Plays m (script x) ok) (hrd : Reads m x so sr push pop rpush rpop put get) (law : Law Sp push pop rpop put get val)
    (hlin : Lawful m ok s so sr Sp hb) (hx : Runs m x ok s h C) (hm : MainR (places C x.main)) {t : Nat} (ht : x.writers ≤ t) (ht' : t < x.main) :
    Seen so sr push pop rpop (fun j i => j < i) h t := by
  obtain ⟨hv, hh⟩ := hx.inv hpl hrd law hlin
  exact hh.final t ht (by rw [hv.mainR hm t ht']; rfl)

theorem Runs.settled (hpl : Plays m (script x) ok) (hrd : Reads m x so sr push pop rpush rpop put get) (law : Law Sp push pop rpop put get val)
    (hlin : Lawful m ok s so sr Sp hb) (hx : Runs m x ok s h C) (hm : MainR (places C x.main)) {t : Nat} (hseen : Seen so sr push pop rpop (hb h) h t) :
    Settled x put get (h.map (Example.strip so sr)) C.s.2 ∧ ∀ t, ∃ a, C.pc t = .at a := by
  obtain ⟨hv, hh⟩ := hx.inv hpl hrd law hlin
  have htd := User.Runs.tidy (sr := sr) hpl hrd.user hx
  obtain ⟨i, j, r, h1, h2, h3, h4⟩ := hseen
  obtain ⟨L, hl⟩ := hlin _ _ (User.Runs.base hpl hrd.user hx)
  refine ⟨Stress.settled hrd law hv hh htd hl hm h1 h2 h3 h4, fun t => ?_⟩
  have hmw : x.main = x.writers + x.readers := rfl
  generalize hp : C.pc t = p
  cases p with
  | «at» a => exact ⟨a, rfl⟩
  | call k q =>
    have hH : places C t = k := by simp only [places]; rw [hp]; rfl
    have hr := hv.role t
    rw [hH] at hr
    have hlt : t < x.main := by
      rcases calls_cases (htd.busy _ _ _ hp).2.1 with ⟨i, v, rfl⟩ | ⟨l, rfl⟩ <;> simp only [Role] at hr <;> omega
    have := hv.mainR hm t hlt
    rw [hH] at this
    subst this
    exact absurd rfl (htd.busy _ _ _ hp).2.1

end

end Verif.Stress
