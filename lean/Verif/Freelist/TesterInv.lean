import Verif.Freelist.Tester
import Verif.Queue.Aba

/-!
# The stress test of the freelists: where the nodes are

Proofs only.
-/

namespace Verif.Freelist.Tester
open Lin User Both
open Verif.Queue (delivered offered accepted)

variable {S₁ P₁ C₁ S₂ P₂ C₂ : Type}

/-! ### Steps -/

/-- Steps of the program. -/
inductive TStep (x : Setup) (P₁ P₂ : Type) (t : Nat) (g : Vars) : User.PC At (Both.PC P₁ P₂) → Vars → User.PC At (Both.PC P₁ P₂) →
    Option (Event (Op Unit ⊕ Queue.Op Nat) (Ret ⊕ Queue.Ret Nat)) → Prop where
  | act {k b g' k'} : x.ops k = none → x.act t g b k = some (g', k') → TStep x P₁ P₂ t g (.at k) g' (.at k') none
  | callL {k o p} : x.ops k = some (.inl o) → TStep x P₁ P₂ t g (.at k) g (.call k (.left p)) (some (.inv t (.inl o)))
  | callR {k o p} : x.ops k = some (.inr o) → TStep x P₁ P₂ t g (.at k) g (.call k (.right p)) (some (.inv t (.inr o)))
  | inL {k p p'} : TStep x P₁ P₂ t g (.call k (.left p)) g (.call k (.left p')) none
  | inR {k p p'} : TStep x P₁ P₂ t g (.call k (.right p)) g (.call k (.right p')) none
  | finL {k p r} : TStep x P₁ P₂ t g (.call k (.left p)) g (.at (next k (.inl r))) (some (.res t (.inl r)))
  | finR {k p r} : TStep x P₁ P₂ t g (.call k (.right p)) g (.at (next k (.inr r))) (some (.res t (.inr r)))

/-- How a container is called. -/
def Makes {S P Ch O R : Type} (m : Mach S P Ch O R) (call : O → Ch) : Prop :=
  ∀ t s o s' p' e, m.step t s m.idle (call o) = some (s', p', e) → e = some (.inv t o)

variable {m₁ : Mach S₁ P₁ C₁ (Op Unit) Ret} {m₂ : Mach S₂ P₂ C₂ (Queue.Op Nat) (Queue.Ret Nat)} {call₁ : Op Unit → C₁} {call₂ : Queue.Op Nat → C₂}
  {ok₁ : S₁ → P₁ → C₁ → Prop} {ok₂ : S₂ → P₂ → C₂ → Prop} {s₁ : S₁} {s₂ : S₂} {x : Setup}
  {h : History (Op Unit ⊕ Queue.Op Nat) (Ret ⊕ Queue.Ret Nat)} {C : MConf ((S₁ × S₂) × Vars) (User.PC At (Both.PC P₁ P₂))}

theorem tstep (he₁ : Ends m₁) (he₂ : Ends m₂) (hm₁ : Makes m₁ call₁) (hm₂ : Makes m₂ call₂) {t : Nat} {σ σ' : (S₁ × S₂) × Vars} {p p' ch e} (hb : ∀ k, p ≠ .call k .idle)
    (hs : (mach (both m₁ m₂) (script x call₁ call₂) .absent).step t σ p ch = some (σ', p', e)) : TStep x P₁ P₂ t σ.2 p σ'.2 p' e := by
  have hs' := User.trans_of_step hs
  obtain ⟨⟨a', b'⟩, g'⟩ := σ'
  obtain ⟨⟨a, b⟩, g⟩ := σ
  simp only at hs' ⊢
  generalize hab : (a', b') = s' at hs'
  cases hs' with
  | @call k b ch s' p' e hk h1 =>
    simp only [script, Option.map_eq_some_iff] at hk
    obtain ⟨o, h2, rfl⟩ := hk
    subst hab
    have h3 := Both.trans_of_step h1
    simp only at h3
    cases o with
    | inl o =>
      simp only [Sum.map_inl] at h3
      generalize hc : Sum.inl (call₁ o) = c at h3
      generalize hi : (both m₁ m₂).idle = i at h3
      cases h3 with
      | callL h4 =>
        cases hc
        cases hm₁ _ _ _ _ _ _ h4
        exact .callL h2
      | callR h4 => cases hc
      | _ => cases hi
    | inr o =>
      simp only [Sum.map_inr] at h3
      generalize hc : Sum.inr (call₂ o) = c at h3
      generalize hi : (both m₁ m₂).idle = i at h3
      cases h3 with
      | callR h4 =>
        cases hc
        cases hm₂ _ _ _ _ _ _ h4
        exact .callR h2
      | callL h4 => cases hc
      | _ => cases hi
  | act hk ha hq =>
    simp only [script, Option.map_eq_none_iff, Option.map_eq_some_iff] at hk ha
    obtain ⟨⟨g₁, k₁⟩, h1, h2⟩ := ha
    cases h2
    exact .act hk h1
  | inside h1 h2 =>
    subst hab
    have h3 := Both.trans_of_step h1
    simp only at h3
    cases h3 with
    | callL h4 => exact absurd rfl (hb _)
    | callR h4 => exact absurd rfl (hb _)
    | stepL h4 => exact .inL
    | stepR h4 => exact .inR
    | resL h4 => exact absurd rfl (h2 _ _)
    | resR h4 => exact absurd rfl (h2 _ _)
  | finish h1 =>
    subst hab
    have h3 := Both.trans_of_step h1
    simp only at h3
    cases h3 with
    | resL h4 =>
      obtain ⟨rfl, _⟩ := he₁.res _ _ _ _ _ _ _ _ h4
      exact .finL
    | resR h4 =>
      obtain ⟨rfl, _⟩ := he₂.res _ _ _ _ _ _ _ _ h4
      exact .finR

theorem call_step (hm₁ : Makes m₁ call₁) (hm₂ : Makes m₂ call₂) {t : Nat} {s s' : S₁ × S₂} {o p' e}
    (hs : (both m₁ m₂).step t s (both m₁ m₂).idle (Sum.map call₁ call₂ o) = some (s', p', e)) : p' ≠ .idle ∧ e = some (.inv t o) := by
  have h3 := Both.trans_of_step hs
  obtain ⟨a', b'⟩ := s'
  obtain ⟨a, b⟩ := s
  simp only at h3
  generalize hi : (both m₁ m₂).idle = i at h3
  cases o with
  | inl o =>
    simp only [Sum.map_inl] at h3
    generalize hc : Sum.inl (call₁ o) = c at h3
    cases h3 with
    | callL h4 =>
      cases hc
      cases hm₁ _ _ _ _ _ _ h4
      exact ⟨nofun, rfl⟩
    | callR h4 => cases hc
    | _ => cases hi
  | inr o =>
    simp only [Sum.map_inr] at h3
    generalize hc : Sum.inr (call₂ o) = c at h3
    cases h3 with
    | callR h4 =>
      cases hc
      cases hm₂ _ _ _ _ _ _ h4
      exact ⟨nofun, rfl⟩
    | callL h4 => cases hc
    | _ => cases hi

theorem plays (he₁ : Ends m₁) (he₂ : Ends m₂) (hm₁ : Makes m₁ call₁) (hm₂ : Makes m₂ call₂) :
    Plays (both m₁ m₂) (script x call₁ call₂) (okBoth m₁ m₂ ok₁ ok₂) where
  call k ch hk t s s' p' e h := by
    simp only [script, Option.map_eq_some_iff] at hk
    obtain ⟨o, h2, rfl⟩ := hk
    obtain ⟨h3, h4⟩ := call_step hm₁ hm₂ h
    exact ⟨h3, o, h4⟩
  step t s p ch s' p' e hp h := by
    have h3 := Both.trans_of_step h
    obtain ⟨a', b'⟩ := s'
    obtain ⟨a, b⟩ := s
    simp only at h3
    cases h3 with
    | callL h4 => exact absurd rfl hp
    | callR h4 => exact absurd rfl hp
    | stepL h4 => exact .inl ⟨rfl, nofun⟩
    | stepR h4 => exact .inl ⟨rfl, nofun⟩
    | resL h4 =>
      obtain ⟨rfl, _⟩ := he₁.res _ _ _ _ _ _ _ _ h4
      exact .inr ⟨_, rfl, rfl⟩
    | resR h4 =>
      obtain ⟨rfl, _⟩ := he₂.res _ _ _ _ _ _ _ _ h4
      exact .inr ⟨_, rfl, rfl⟩
  sync t g k b y h ch hch := by
    simp only [script, Option.map_eq_some_iff] at h
    obtain ⟨z, _, rfl⟩ := h
    simp at hch

theorem reads (hm₁ : Makes m₁ call₁) (hm₂ : Makes m₂ call₂) :
    User.Reads (both m₁ m₂) (script x call₁ call₂) id fun k => (x.ops k).getD (.inr .pop) where
  call k ch hk t s s' p' e h := by
    simp only [script, Option.map_eq_some_iff] at hk
    obtain ⟨o, h2, rfl⟩ := hk
    obtain ⟨h3, h4⟩ := call_step hm₁ hm₂ h
    exact ⟨o, h4, by simp [h2]⟩

/-! ### Counting -/

section
variable {A : Type}

/-- How often the threads below `N` have `y`. -/
def tot (f : A → List Nat) (pc : Nat → A) (y : Nat) : Nat → Nat
  | 0 => 0
  | N + 1 => tot f pc y N + (f (pc N)).count y

theorem tot_upd_ge {f : A → List Nat} {pc : Nat → A} {t N y : Nat} {p : A} (ht : N ≤ t) : tot f (upd pc t p) y N = tot f pc y N := by
  induction N with
  | zero => rfl
  | succ N ih => rw [tot, tot, ih (by omega), upd_ne _ _ _ (by omega)]

theorem tot_upd {f : A → List Nat} {pc : Nat → A} {t N : Nat} {p : A} (y : Nat) (ht : t < N) :
    tot f (upd pc t p) y N + (f (pc t)).count y = tot f pc y N + (f p).count y := by
  induction N with
  | zero => omega
  | succ N ih =>
    by_cases h : t = N
    · subst h
      rw [tot, tot, tot_upd_ge (Nat.le_refl _), upd_self]; omega
    · have := ih (by omega)
      rw [tot, tot, upd_ne _ _ _ (Ne.symm h)]; omega

theorem le_tot {f : A → List Nat} {pc : Nat → A} {t N : Nat} (y : Nat) (ht : t < N) : (f (pc t)).count y ≤ tot f pc y N := by
  induction N with
  | zero => omega
  | succ N ih =>
    by_cases h : t = N
    · subst h; rw [tot]; omega
    · have := ih (by omega)
      rw [tot]; omega

theorem tot_zero {f : A → List Nat} {pc : Nat → A} {N : Nat} (y : Nat) (hf : ∀ t, f (pc t) = []) : tot f pc y N = 0 := by
  induction N with
  | zero => rfl
  | succ N ih => rw [tot, ih, hf]; rfl

end

/-- The node a thread has taken and not yet recorded. -/
def toInsert {P : Type} : User.PC At P → List Nat
  | .at (.insert _ n) => [n]
  | _ => []

/-- The node a thread has recorded and not yet offered to the queue. -/
def toPush {P : Type} : User.PC At P → List Nat
  | .at (.push _ n) => [n]
  | _ => []

/-- The node a thread is pushing. -/
def inPush {P : Type} : User.PC At P → List Nat
  | .call (.push _ n) _ => [n]
  | _ => []

/-- The node a thread has popped and not yet removed from the record. -/
def toErase {P : Type} : User.PC At P → List Nat
  | .at (.erase _ n) => [n]
  | _ => []

/-- The node a thread is about to give back. -/
def toDestruct {P : Type} : User.PC At P → List Nat
  | .at (.destruct _ n) => [n]
  | _ => []

/-- The threads that can be at a place. -/
def Role (x : Setup) (t : Nat) : At → Prop
  | .forTest _ | .construct _ | .insert .. | .push .. => t < x.allocators
  | .pop _ | .erase .. | .destruct .. | .load => x.allocators ≤ t ∧ t < x.main
  | .leave | .ended | .threw => t < x.main
  | .joinAlloc | .stop | .joinDealloc | .finished => t = x.main
  | .failed => False
  | .absent => x.main < t

/-- The call of the queue that a thread is in. -/
def callR (x : Setup) {P : Type} : User.PC At P → Option (Queue.Op Nat)
  | .call k _ => (x.ops k).bind Sum.getRight?
  | .at _ => none

/-- The call of the freelist that a thread is in. -/
def callL (x : Setup) {P : Type} : User.PC At P → Option (Op Unit)
  | .call k _ => (x.ops k).bind Sum.getLeft?
  | .at _ => none

/-- A thread is in a call of the container that the place calls. -/
def Sided (x : Setup) : User.PC At (Both.PC P₁ P₂) → Prop
  | .at _ => True
  | .call k (.left _) => ∃ o, x.ops k = some (.inl o)
  | .call k (.right _) => ∃ o, x.ops k = some (.inr o)
  | .call _ .idle => False

/-- Where the nodes are. -/
structure NInv (x : Setup) (h : History (Op Unit ⊕ Queue.Op Nat) (Ret ⊕ Queue.Ret Nat)) (pc : Nat → User.PC At (Both.PC P₁ P₂)) (g : Vars) : Prop where
  role : ∀ t, Role x t (pc t).here
  sided : ∀ t, Sided x (pc t)
  disc : Disciplined (lefts h)
  single : ∀ y, (owned (lefts h)).count y ≤ 1
  own : ∀ y, (owned (lefts h)).count y = tot toInsert pc y (x.main + 1) + g.working_set.count y + tot toDestruct pc y (x.main + 1)
  flow : ∀ y, g.working_set.count y + (delivered (rights h)).count y =
    tot toPush pc y (x.main + 1) + (offered (rights h)).count y + tot toErase pc y (x.main + 1)
  calling : Calling (rights h) fun t => callR x (pc t)
  callingL : Calling (lefts h) fun t => callL x (pc t)

theorem role_le {x : Setup} {t : Nat} {a : At} (hr : Role x t a) (ha : a ≠ .absent) : t < x.main + 1 := by
  cases a <;> simp only [Role, Setup.main] at hr ⊢ <;> first | omega | exact absurd rfl ha

theorem NInv.initial (x : Setup) : NInv (P₁ := P₁) (P₂ := P₂) x [] (fun t => .at (start x t)) Vars.init where
  role t := by
    simp only [PC.here, start]
    split
    · exact ‹_›
    · split
      · simp only [Role]; omega
      · split
        · exact ‹_›
        · simp only [Role]; omega
  sided _ := trivial
  disc h₁ t n h₂ he := by simp [lefts] at he
  single y := by simp [lefts, owned]
  own y := by
    rw [tot_zero, tot_zero]
    · rfl
    · intro t; simp only [start]; repeat' split
      all_goals simp_all [toDestruct]
    · intro t; simp only [start]; repeat' split
      all_goals simp_all [toInsert]
  flow y := by
    rw [tot_zero, tot_zero]
    · rfl
    · intro t; simp only [start]; repeat' split
      all_goals simp_all [toErase]
    · intro t; simp only [start]; repeat' split
      all_goals simp_all [toPush]
  calling := by
    show Calling [] fun _ => none
    exact Calling.nil
  callingL := by
    show Calling [] fun _ => none
    exact Calling.nil

/-! ### The invariant is kept -/

section
variable {pc : Nat → User.PC At (Both.PC P₁ P₂)} {g g' : Vars} {t : Nat} {p' : User.PC At (Both.PC P₁ P₂)}
  {h' : History (Op Unit ⊕ Queue.Op Nat) (Ret ⊕ Queue.Ret Nat)}

theorem callR_upd (x : Setup) (pc : Nat → User.PC At (Both.PC P₁ P₂)) (t : Nat) (p' : User.PC At (Both.PC P₁ P₂)) :
    (fun u => callR x (upd pc t p' u)) = upd (fun u => callR x (pc u)) t (callR x p') := by
  funext u
  simp only [upd_apply]
  split <;> rfl

theorem callL_upd (x : Setup) (pc : Nat → User.PC At (Both.PC P₁ P₂)) (t : Nat) (p' : User.PC At (Both.PC P₁ P₂)) :
    (fun u => callL x (upd pc t p' u)) = upd (fun u => callL x (pc u)) t (callL x p') := by
  funext u
  simp only [upd_apply]
  split <;> rfl

theorem NInv.assemble (hi : NInv x h pc g) (ht : t < x.main + 1) (hr : Role x t p'.here) (hsd : Sided x p') (hd : Disciplined (lefts h'))
    (h1 : ∀ y, (owned (lefts h')).count y ≤ 1)
    (ho : ∀ y, (owned (lefts h')).count y + (toInsert (pc t)).count y + g.working_set.count y + (toDestruct (pc t)).count y =
      (owned (lefts h)).count y + (toInsert p').count y + g'.working_set.count y + (toDestruct p').count y)
    (hf : ∀ y, g'.working_set.count y + (delivered (rights h')).count y + (toPush (pc t)).count y + (offered (rights h)).count y + (toErase (pc t)).count y =
      g.working_set.count y + (delivered (rights h)).count y + (toPush p').count y + (offered (rights h')).count y + (toErase p').count y)
    (hc : Calling (rights h') (upd (fun u => callR x (pc u)) t (callR x p')))
    (hcl : Calling (lefts h') (upd (fun u => callL x (pc u)) t (callL x p'))) : NInv x h' (upd pc t p') g' where
  role u := by
    by_cases hu : u = t
    · subst hu; simpa using hr
    · rw [upd_ne _ _ _ hu]; exact hi.role u
  sided u := by
    by_cases hu : u = t
    · subst hu; simpa using hsd
    · rw [upd_ne _ _ _ hu]; exact hi.sided u
  disc := hd
  single := h1
  own y := by
    have a := hi.own y
    have b := tot_upd (f := toInsert) (pc := pc) (p := p') y ht
    have c := tot_upd (f := toDestruct) (pc := pc) (p := p') y ht
    have d := ho y
    omega
  flow y := by
    have a := hi.flow y
    have b := tot_upd (f := toPush) (pc := pc) (p := p') y ht
    have c := tot_upd (f := toErase) (pc := pc) (p := p') y ht
    have d := hf y
    omega
  calling := by rw [callR_upd]; exact hc
  callingL := by rw [callL_upd]; exact hcl

/-- Steps without event. -/
theorem NInv.silent (hi : NInv x h pc g) (ht : t < x.main + 1) (hr : Role x t p'.here) (hsd : Sided x p')
    (ho : ∀ y, (toInsert (pc t)).count y + g.working_set.count y + (toDestruct (pc t)).count y =
      (toInsert p').count y + g'.working_set.count y + (toDestruct p').count y)
    (hf : ∀ y, g'.working_set.count y + (toPush (pc t)).count y + (toErase (pc t)).count y =
      g.working_set.count y + (toPush p').count y + (toErase p').count y)
    (hc : callR x p' = callR x (pc t)) (hcl : callL x p' = callL x (pc t)) : NInv x (h ++ []) (upd pc t p') g' := by
  rw [List.append_nil]
  refine hi.assemble ht hr hsd hi.disc hi.single (fun y => ?_) (fun y => ?_) ?_ ?_
  · have := ho y; omega
  · have := hf y; omega
  · rw [hc, upd_eq_self (fun u => callR x (pc u)) t]; exact hi.calling
  · rw [hcl, upd_eq_self (fun u => callL x (pc u)) t]; exact hi.callingL

theorem disciplined_snoc {α : Type} {h : History (Op α) Ret} {e : Event (Op α) Ret} (hd : Disciplined h) (he : ∀ u n, e = .inv u (.destruct n) → n ∈ owned h) :
    Disciplined (h ++ [e]) := by
  intro h₁ u n h₂ heq
  rcases List.eq_nil_or_concat h₂ with rfl | ⟨l, b, rfl⟩
  · obtain ⟨rfl, h2⟩ := List.append_inj' heq rfl
    exact he u n (by simpa using h2)
  · have : h ++ [e] = (h₁ ++ .inv u (.destruct n) :: l) ++ [b] := by simpa using heq
    exact hd h₁ u n l (List.append_inj' this rfl).1

theorem lefts_inl_inv (t : Nat) (o : Op Unit) : lefts (O₂ := Queue.Op Nat) (R₁ := Ret) (R₂ := Queue.Ret Nat) [.inv t (.inl o)] = [.inv t o] := rfl
theorem rights_inl_inv (t : Nat) (o : Op Unit) : rights (O₂ := Queue.Op Nat) (R₁ := Ret) (R₂ := Queue.Ret Nat) [.inv t (.inl o)] = [] := rfl
theorem lefts_inr_inv (t : Nat) (o : Queue.Op Nat) : lefts (O₁ := Op Unit) (R₁ := Ret) (R₂ := Queue.Ret Nat) [.inv t (.inr o)] = [] := rfl
theorem rights_inr_inv (t : Nat) (o : Queue.Op Nat) : rights (O₁ := Op Unit) (R₁ := Ret) (R₂ := Queue.Ret Nat) [.inv t (.inr o)] = [.inv t o] := rfl
theorem lefts_inl_res (t : Nat) (r : Ret) : lefts (O₁ := Op Unit) (O₂ := Queue.Op Nat) (R₂ := Queue.Ret Nat) [.res t (.inl r)] = [.res t r] := rfl
theorem rights_inl_res (t : Nat) (r : Ret) : rights (O₁ := Op Unit) (O₂ := Queue.Op Nat) (R₂ := Queue.Ret Nat) [.res t (.inl r)] = [] := rfl
theorem lefts_inr_res (t : Nat) (r : Queue.Ret Nat) : lefts (O₁ := Op Unit) (O₂ := Queue.Op Nat) (R₁ := Ret) [.res t (.inr r)] = [] := rfl
theorem rights_inr_res (t : Nat) (r : Queue.Ret Nat) : rights (O₁ := Op Unit) (O₂ := Queue.Op Nat) (R₁ := Ret) [.res t (.inr r)] = [.res t r] := rfl

theorem delivered_snoc_inv (b : History (Queue.Op Nat) (Queue.Ret Nat)) (t : Nat) (o : Queue.Op Nat) : delivered (b ++ [.inv t o]) = delivered b := by
  simp only [delivered, calls_snoc_inv]

theorem offered_snoc_inv (b : History (Queue.Op Nat) (Queue.Ret Nat)) (t : Nat) (o : Queue.Op Nat) :
    offered (b ++ [.inv t o]) = offered b ++ (Queue.offeredBy o).toList := by
  rw [Queue.offered_append, Queue.offered_cons]; simp [Queue.offeredAt]; rfl

theorem offered_snoc_res (b : History (Queue.Op Nat) (Queue.Ret Nat)) (t : Nat) (r : Queue.Ret Nat) : offered (b ++ [.res t r]) = offered b := by
  rw [Queue.offered_append, Queue.offered_cons]; simp [Queue.offeredAt]; rfl

theorem delivered_snoc_res {b : History (Queue.Op Nat) (Queue.Ret Nat)} {t i : Nat} {o : Queue.Op Nat} (hp : Pending b t i o) (r : Queue.Ret Nat) (y : Nat) :
    (delivered (b ++ [.res t r])).count y = (Queue.handedBy o r).toList.count y + (delivered b).count y := by
  have h1 := ((calls_snoc_res hp r).filterMap Queue.gotBy).count_eq y
  rw [List.filterMap_cons] at h1
  rw [delivered, h1, Queue.gotBy]
  cases Queue.handedBy o r with
  | none => simp [delivered]
  | some z => simp [delivered, List.count_cons]; omega

theorem accepted_snoc_inv (b : History (Queue.Op Nat) (Queue.Ret Nat)) (t : Nat) (o : Queue.Op Nat) : accepted (b ++ [.inv t o]) = accepted b := by
  simp only [accepted, calls_snoc_inv]

theorem accepted_snoc_res {b : History (Queue.Op Nat) (Queue.Ret Nat)} {t i : Nat} {o : Queue.Op Nat} (hp : Pending b t i o) (r : Queue.Ret Nat) (y : Nat) :
    (accepted (b ++ [.res t r])).count y = (Queue.pushedBy o r).toList.count y + (accepted b).count y := by
  have h1 := ((calls_snoc_res hp r).filterMap Queue.putBy).count_eq y
  rw [List.filterMap_cons] at h1
  rw [accepted, h1, Queue.putBy]
  cases Queue.pushedBy o r with
  | none => simp [accepted]
  | some z => simp [accepted, List.count_cons]; omega

theorem NInv.step {e} (hi : NInv x h pc g) (hs : TStep x P₁ P₂ t g (pc t) g' p' e)
    (hexcl : ∀ n, e = some (.res t (.inl (.node (some n)))) → n ∉ owned (lefts h))
    (hshape : ∀ n k q, pc t = .call k q → e = some (.res t (.inl (.node (some n)))) → ∃ i, k = .construct i)
    (hsub : ∀ y, (delivered (rights h)).count y ≤ (offered (rights h)).count y) : NInv x (h ++ e.toList) (upd pc t p') g' := by
  have hr := hi.role t
  have hsd := hi.sided t
  have ht : (pc t).here ≠ .absent → t < x.main + 1 := role_le hr
  generalize hp : pc t = p at hs hr hsd ht
  cases hs with
  | @act k b g' k' hk ha =>
    simp only [PC.here] at hr ht
    cases k with
    | forTest i =>
      simp only [Setup.act, Option.some.injEq, Prod.mk.injEq] at ha
      obtain ⟨rfl, rfl⟩ := ha
      refine hi.silent (ht nofun) ?_ trivial (fun y => ?_) (fun y => ?_) (by rw [hp]; rfl) (by rw [hp]; rfl)
      · simp only [PC.here]; split
        · simp only [Role, Setup.main] at hr ⊢; omega
        · exact hr
      all_goals rw [hp]; split <;> simp [toInsert, toDestruct, toPush, toErase]
    | insert i n =>
      have hn : n ∉ g.working_set := by
        have h1 := hi.single n
        have h2 := hi.own n
        have h3 := le_tot (f := toInsert) (pc := pc) n (ht nofun)
        rw [hp] at h3
        simp only [toInsert, List.count_singleton_self] at h3
        exact List.count_eq_zero.1 (by omega)
      simp only [Setup.act, if_neg hn, Option.some.injEq, Prod.mk.injEq] at ha
      obtain ⟨rfl, rfl⟩ := ha
      refine hi.silent (ht nofun) hr trivial (fun y => ?_) (fun y => ?_) (by rw [hp]; rfl) (by rw [hp]; rfl)
      all_goals rw [hp]; simp [toInsert, toDestruct, toPush, toErase, List.count_cons]; try omega
    | erase l n =>
      have hn : n ∈ g.working_set := by
        have h1 := hi.flow n
        have h2 := hsub n
        have h3 := le_tot (f := toErase) (pc := pc) n (ht nofun)
        rw [hp] at h3
        simp only [toErase, List.count_singleton_self] at h3
        exact List.count_pos_iff.1 (by omega)
      simp only [Setup.act, if_pos hn, Option.some.injEq, Prod.mk.injEq] at ha
      obtain ⟨rfl, rfl⟩ := ha
      have hcnt : ∀ y, (g.working_set.erase n).count y + [n].count y = g.working_set.count y := by
        intro y
        have := (List.perm_cons_erase hn).count_eq y
        simp only [List.count_cons, List.count_nil] at this ⊢
        omega
      refine hi.silent (ht nofun) hr trivial (fun y => ?_) (fun y => ?_) (by rw [hp]; rfl) (by rw [hp]; rfl)
      all_goals rw [hp]; have := hcnt y; simp only [toInsert, toDestruct, toPush, toErase, List.count_nil]; omega
    | load =>
      simp only [Setup.act] at ha
      have : g' = g ∧ ∃ l, k' = .pop l := by
        split at ha
        · split at ha
          · cases ha
          · simp only [Option.some.injEq, Prod.mk.injEq] at ha; exact ⟨ha.1.symm, _, ha.2.symm⟩
        · simp only [Option.some.injEq, Prod.mk.injEq] at ha; exact ⟨ha.1.symm, _, ha.2.symm⟩
      obtain ⟨rfl, l, rfl⟩ := this
      exact hi.silent (ht nofun) hr trivial (fun y => by rw [hp]; simp [toInsert, toDestruct]) (fun y => by rw [hp]; simp [toPush, toErase]) (by rw [hp]; rfl) (by rw [hp]; rfl)
    | leave =>
      simp only [Setup.act, Option.some.injEq, Prod.mk.injEq] at ha
      obtain ⟨rfl, rfl⟩ := ha
      exact hi.silent (ht nofun) hr trivial (fun y => by rw [hp]; simp [toInsert, toDestruct]) (fun y => by rw [hp]; simp [toPush, toErase]) (by rw [hp]; rfl) (by rw [hp]; rfl)
    | joinAlloc =>
      simp only [Setup.act] at ha
      split at ha
      · simp only [Option.some.injEq, Prod.mk.injEq] at ha
        obtain ⟨rfl, rfl⟩ := ha
        exact hi.silent (ht nofun) hr trivial (fun y => by rw [hp]; simp [toInsert, toDestruct]) (fun y => by rw [hp]; simp [toPush, toErase]) (by rw [hp]; rfl) (by rw [hp]; rfl)
      · cases ha
    | stop =>
      simp only [Setup.act, Option.some.injEq, Prod.mk.injEq] at ha
      obtain ⟨rfl, rfl⟩ := ha
      exact hi.silent (ht nofun) hr trivial (fun y => by rw [hp]; simp [toInsert, toDestruct]) (fun y => by rw [hp]; simp [toPush, toErase]) (by rw [hp]; rfl) (by rw [hp]; rfl)
    | joinDealloc =>
      simp only [Setup.act] at ha
      split at ha
      · simp only [Option.some.injEq, Prod.mk.injEq] at ha
        obtain ⟨rfl, rfl⟩ := ha
        exact hi.silent (ht nofun) hr trivial (fun y => by rw [hp]; simp [toInsert, toDestruct]) (fun y => by rw [hp]; simp [toPush, toErase]) (by rw [hp]; rfl) (by rw [hp]; rfl)
      · cases ha
    | _ => cases ha
  | @callL k o q hk =>
    simp only [Option.toList_some]
    have hcr : callR x (PC.call k (Both.PC.left q : Both.PC P₁ P₂)) = none := by simp [callR, hk]
    have hcr' : callR x (pc t) = none := by rw [hp]; rfl
    have hlt : t < x.main + 1 := ht (by rintro h; simp only [PC.here] at h; subst h; cases hk)
    refine hi.assemble hlt hr ⟨o, hk⟩ ?_ ?_ ?_ ?_ ?_ ?_
    · rw [lefts_append, lefts_inl_inv]
      refine disciplined_snoc hi.disc fun u n hev => ?_
      cases hev
      cases k <;> simp only [Setup.ops] at hk <;> cases hk
      have h2 := hi.own n
      have h3 := le_tot (f := toDestruct) (pc := pc) n hlt
      rw [hp] at h3
      simp only [toDestruct, List.count_singleton_self] at h3
      exact List.count_pos_iff.1 (by omega)
    · intro y
      rw [lefts_append, lefts_inl_inv, owned_snoc]
      have := hi.single y
      cases o with
      | construct b v thr => exact this
      | destruct n => exact Nat.le_trans (List.erase_sublist.count_le y) this
    · intro y
      rw [lefts_append, lefts_inl_inv, owned_snoc, hp]
      cases k <;> simp only [Setup.ops] at hk <;> cases hk
      · simp [toInsert, toDestruct, ownedStep]
      · rename_i l n
        have hn : n ∈ owned (lefts h) := by
          have h2 := hi.own n
          have h3 := le_tot (f := toDestruct) (pc := pc) n hlt
          rw [hp] at h3
          simp only [toDestruct, List.count_singleton_self] at h3
          exact List.count_pos_iff.1 (by omega)
        have := (List.perm_cons_erase hn).count_eq y
        simp only [List.count_cons, List.count_nil, toInsert, toDestruct, ownedStep] at this ⊢
        omega
    · intro y
      rw [rights_append, rights_inl_inv, List.append_nil, hp]
      cases k <;> simp only [Setup.ops] at hk <;> cases hk <;> simp [toPush, toErase]
    · rw [rights_append, rights_inl_inv, List.append_nil, hcr, ← hcr', upd_eq_self (fun u => callR x (pc u)) t]
      exact hi.calling
    · rw [lefts_append, lefts_inl_inv, show Tester.callL x (PC.call k (Both.PC.left q : Both.PC P₁ P₂)) = some o by simp [Tester.callL, hk]]
      exact hi.callingL.inv (by rw [hp]; rfl) o
  | @callR k o q hk =>
    simp only [Option.toList_some]
    have hcr : Tester.callR x (PC.call k (Both.PC.right q : Both.PC P₁ P₂)) = some o := by simp [Tester.callR, hk]
    have hlt : t < x.main + 1 := ht (by rintro h; simp only [PC.here] at h; subst h; cases hk)
    refine hi.assemble hlt hr ⟨o, hk⟩ ?_ ?_ ?_ ?_ ?_ ?_
    · rw [lefts_append, lefts_inr_inv, List.append_nil]; exact hi.disc
    · rw [lefts_append, lefts_inr_inv, List.append_nil]; exact hi.single
    · intro y
      rw [lefts_append, lefts_inr_inv, List.append_nil, hp]
      cases k <;> simp only [Setup.ops] at hk <;> cases hk <;> simp [toInsert, toDestruct]
    · intro y
      rw [rights_append, rights_inr_inv, delivered_snoc_inv, offered_snoc_inv, hp]
      cases k <;> simp only [Setup.ops] at hk <;> cases hk
      · simp [toPush, toErase, Queue.offeredBy, List.count_append]; omega
      · simp [toPush, toErase, Queue.offeredBy]
    · rw [rights_append, rights_inr_inv, hcr]
      exact hi.calling.inv (by rw [hp]; rfl) o
    · rw [lefts_append, lefts_inr_inv, List.append_nil, show Tester.callL x (PC.call k (Both.PC.right q : Both.PC P₁ P₂)) = Tester.callL x (pc t) by
        rw [hp]; simp [Tester.callL, hk], upd_eq_self (fun u => Tester.callL x (pc u)) t]
      exact hi.callingL
  | @inL k q q' =>
    obtain ⟨o, hk⟩ := hsd
    have hlt : t < x.main + 1 := ht (by rintro h; simp only [PC.here] at h; subst h; cases hk)
    exact hi.silent hlt hr ⟨o, hk⟩ (fun y => by rw [hp]; simp [toInsert, toDestruct]) (fun y => by rw [hp]; simp [toPush, toErase]) (by rw [hp]; rfl) (by rw [hp]; rfl)
  | @inR k q q' =>
    obtain ⟨o, hk⟩ := hsd
    have hlt : t < x.main + 1 := ht (by rintro h; simp only [PC.here] at h; subst h; cases hk)
    exact hi.silent hlt hr ⟨o, hk⟩ (fun y => by rw [hp]; simp [toInsert, toDestruct]) (fun y => by rw [hp]; simp [toPush, toErase]) (by rw [hp]; rfl) (by rw [hp]; rfl)
  | @finL k q r =>
    obtain ⟨o, hk⟩ := hsd
    have hlt : t < x.main + 1 := ht (by rintro h; simp only [PC.here] at h; subst h; cases hk)
    simp only [Option.toList_some]
    have hcr' : Tester.callR x (pc t) = none := by rw [hp]; simp [Tester.callR, hk]
    have hcl' : Tester.callL x (pc t) = some o := by rw [hp]; simp [Tester.callL, hk]
    have hadd : ∀ y, (owned (lefts h ++ [.res t r])).count y =
        (owned (lefts h)).count y + (toInsert (P := Both.PC P₁ P₂) (.at (next k (.inl r)))).count y := by
      intro y
      rw [owned_snoc]
      by_cases hn : ∃ n, r = .node (some n)
      · obtain ⟨n, rfl⟩ := hn
        obtain ⟨i, rfl⟩ := hshape n k _ hp rfl
        simp [ownedStep, next, toInsert, List.count_cons]
      · have h1 : ownedStep (α := Unit) (owned (lefts h)) (.res t r) = owned (lefts h) := by
          unfold ownedStep
          split
          · rename_i h; cases h; exact absurd ⟨_, rfl⟩ hn
          · rename_i h; cases h
          · rfl
        have h2 : toInsert (P := Both.PC P₁ P₂) (.at (next k (.inl r))) = [] := by
          unfold next
          split <;> try rfl
          · rename_i h; cases h; exact absurd ⟨_, rfl⟩ hn
          · split <;> rfl
          · split <;> rfl
        rw [h1, h2]; simp
    have hothers : toDestruct (P := Both.PC P₁ P₂) (.at (next k (.inl r))) = [] ∧ toPush (P := Both.PC P₁ P₂) (.at (next k (.inl r))) = [] ∧
        toErase (P := Both.PC P₁ P₂) (.at (next k (.inl r))) = [] := by
      cases k <;> simp only [Setup.ops] at hk <;> cases hk <;> unfold next <;> (repeat' split) <;> simp_all [toDestruct, toPush, toErase]
    obtain ⟨n1, n2, n3⟩ := hothers
    refine hi.assemble hlt ?_ trivial ?_ ?_ ?_ ?_ ?_ ?_
    · simp only [PC.here] at hr ⊢
      cases k <;> simp only [Setup.ops] at hk <;> cases hk <;> unfold next <;> (repeat' split) <;> simp_all [Role, Setup.main]
      omega
    · rw [lefts_append, lefts_inl_res]
      exact disciplined_snoc hi.disc nofun
    · intro y
      rw [lefts_append, lefts_inl_res, owned_snoc]
      have := hi.single y
      unfold ownedStep
      split
      · rename_i n hev
        cases hev
        have := hexcl n rfl
        by_cases hy : y = n
        · subst hy; rw [List.count_cons_self, List.count_eq_zero.2 this]; exact Nat.le_refl _
        · rw [List.count_cons_of_ne (Ne.symm hy)]; exact hi.single y
      · rename_i hev; cases hev
      · exact this
    · intro y
      rw [lefts_append, lefts_inl_res, hadd y, hp, n1]
      simp [toInsert, toDestruct]
    · intro y
      rw [rights_append, rights_inl_res, List.append_nil, hp, n2, n3]
      simp [toPush, toErase]
    · rw [rights_append, rights_inl_res, List.append_nil, show Tester.callR x (PC.at (next k (.inl r)) : User.PC At (Both.PC P₁ P₂)) = Tester.callR x (pc t) by
        rw [hcr']; rfl, upd_eq_self (fun u => Tester.callR x (pc u)) t]
      exact hi.calling
    · rw [lefts_append, lefts_inl_res]
      exact hi.callingL.res hcl' r
  | @finR k q r =>
    obtain ⟨o, hk⟩ := hsd
    have hlt : t < x.main + 1 := ht (by rintro h; simp only [PC.here] at h; subst h; cases hk)
    simp only [Option.toList_some]
    have hcr' : Tester.callR x (pc t) = some o := by rw [hp]; simp [Tester.callR, hk]
    have hcl' : Tester.callL x (pc t) = none := by rw [hp]; simp [Tester.callL, hk]
    obtain ⟨i, hpe⟩ := hi.calling.busy t o hcr'
    have hgot : (Queue.handedBy o r).toList = toErase (P := Both.PC P₁ P₂) (.at (next k (.inr r))) := by
      cases k <;> simp only [Setup.ops] at hk <;> cases hk
      · cases r <;> rfl
      · rename_i l
        cases r with
        | popped v => cases v with
          | none => cases l <;> rfl
          | some v => rfl
        | _ => rfl
    have hothers : toDestruct (P := Both.PC P₁ P₂) (.at (next k (.inr r))) = [] ∧ toPush (P := Both.PC P₁ P₂) (.at (next k (.inr r))) = [] ∧
        toInsert (P := Both.PC P₁ P₂) (.at (next k (.inr r))) = [] := by
      cases k <;> simp only [Setup.ops] at hk <;> cases hk <;> unfold next <;> (repeat' split) <;> simp_all [toDestruct, toPush, toInsert]
    obtain ⟨n1, n2, n3⟩ := hothers
    refine hi.assemble hlt ?_ trivial ?_ ?_ ?_ ?_ ?_ ?_
    · simp only [PC.here] at hr ⊢
      cases k <;> simp only [Setup.ops] at hk <;> cases hk <;> unfold next <;> (repeat' split) <;> simp_all [Role, Setup.main]
      omega
    · rw [lefts_append, lefts_inr_res, List.append_nil]; exact hi.disc
    · rw [lefts_append, lefts_inr_res, List.append_nil]; exact hi.single
    · intro y
      rw [lefts_append, lefts_inr_res, List.append_nil, hp, n1, n3]
      simp [toInsert, toDestruct]
    · intro y
      rw [rights_append, rights_inr_res, delivered_snoc_res hpe, offered_snoc_res, hp, n2, hgot]
      simp only [toPush, toErase, List.count_nil]; omega
    · rw [rights_append, rights_inr_res]
      exact hi.calling.res hcr' r
    · rw [lefts_append, lefts_inr_res, List.append_nil, show Tester.callL x (PC.at (next k (.inr r)) : User.PC At (Both.PC P₁ P₂)) = Tester.callL x (pc t) by
        rw [hcl']; rfl, upd_eq_self (fun u => Tester.callL x (pc u)) t]
      exact hi.callingL

end

end Verif.Freelist.Tester
