import Verif.Threads
import Verif.Instant

/-!
# Routines built from calls

No code of /repo is modelled here. Some member functions only call other member functions of the same container, one after the
other (`consume_all`, `queue::consume_one`). Given the machine of the container, this module makes the machine of a container
with such routines: a call of a routine is a sequence of calls of the container, other threads being free to run in between.

Traces of this machine contain the invocations and responses of the routines (`outer`) and those of the calls they make (`inner`).
-/

namespace Verif
open Lin

variable {S P Ch O R CO CR L : Type}

/-- A routine with local state `L`: makes calls `O` with results `R`; is itself called with `CO` and returns `CR`. -/
structure Routine (O R CO CR L : Type) where
  start : CO → L
  /-- what comes next: a call, or return -/
  next : L → O ⊕ CR
  /-- local state after a call has returned -/
  got : L → R → L

/-- Program counters of a thread: outside; between two calls of a routine; in a call; about to return. -/
inductive CPC (P CR L : Type) where
  | out
  | between (l : L)
  | within (l : L) (p : P)
  | ret (r : CR)

/-- Resolution of nondeterminism. -/
inductive CChoice (Ch CO : Type) where
  | call (o : CO)
  | inner (ch : Ch)
  | go

/-- A trace: events of routines (`Sum.inl`) and of the calls they make (`Sum.inr`), in the order in which they happen. -/
abbrev Trace (O R CO CR : Type) := History (CO ⊕ O) (CR ⊕ R)

/-- An event of a call made by a routine. -/
def mkInner : Event O R → Event (CO ⊕ O) (CR ⊕ R)
  | .inv t o => .inv t (.inr o)
  | .res t r => .res t (.inr r)

/-- The event of a routine. -/
def outer? : Event (CO ⊕ O) (CR ⊕ R) → Option (Event CO CR)
  | .inv t (.inl o) => some (.inv t o)
  | .res t (.inl r) => some (.res t r)
  | _ => none

/-- The event of a call of the container. -/
def inner? : Event (CO ⊕ O) (CR ⊕ R) → Option (Event O R)
  | .inv t (.inr o) => some (.inv t o)
  | .res t (.inr r) => some (.res t r)
  | _ => none

/-- History of the calls of routines. -/
def outer (tr : Trace O R CO CR) : History CO CR := tr.filterMap outer?
/-- History of the calls of the container. -/
def inner (tr : Trace O R CO CR) : History O R := tr.filterMap inner?

/-- The machine with routines. `call o` is the choice of `m` that calls `o`. -/
def Mach.client (m : Mach S P Ch O R) (rt : Routine O R CO CR L) (call : O → Ch) :
    Mach S (CPC P CR L) (CChoice Ch CO) (CO ⊕ O) (CR ⊕ R) where
  step t s
    | .out, .call o => some (s, .between (rt.start o), some (.inv t (.inl o)))
    | .between l, .go =>
      match rt.next l with
      | .inr r => some (s, .ret r, none)
      | .inl o => (m.step t s m.idle (call o)).map fun x => (x.1, .within l x.2.1, x.2.2.map mkInner)
    | .within l p, .inner ch =>
      match m.step t s p ch with
      | none => none
      | some (s', _, some (.res u r)) => some (s', .between (rt.got l r), some (.res u (.inr r)))
      | some (s', p', e) => some (s', .within l p', e.map mkInner)
    | .ret r, .go => some (s, .out, some (.res t (.inl r)))
    | _, _ => none
  idle := .out
  ret
    | .inl r => .ret r
    | .inr _ => .out

/-- The steps of the container satisfy `ok`. -/
def clientOk (m : Mach S P Ch O R) (rt : Routine O R CO CR L) (call : O → Ch) (ok : S → P → Ch → Prop)
    (s : S) : CPC P CR L → CChoice Ch CO → Prop
  | .between l, .go => ∀ o, rt.next l = .inl o → ok s m.idle (call o)
  | .within _ p, .inner ch => ok s p ch
  | _, _ => True

/-- PC of the container. -/
def Mach.basePC (m : Mach S P Ch O R) : CPC P CR L → P
  | .within _ p => p
  | _ => m.idle

/-- The configuration of the container. -/
def Mach.base (m : Mach S P Ch O R) (C : MConf S (CPC P CR L)) : MConf S P := ⟨C.s, fun t => m.basePC (C.pc t)⟩

/-- All threads outside. -/
def outside (s : S) : MConf S (CPC P CR L) := ⟨s, fun _ => .out⟩

variable {m : Mach S P Ch O R} {rt : Routine O R CO CR L} {call : O → Ch} {ok : S → P → Ch → Prop}
  {C₀ C C₁ C₂ : MConf S (CPC P CR L)} {tr tr₁ tr₂ : Trace O R CO CR}

/-! ### Events -/

@[simp] theorem inner_append : inner (tr₁ ++ tr₂) = inner tr₁ ++ inner tr₂ := List.filterMap_append ..
@[simp] theorem outer_append : outer (tr₁ ++ tr₂) = outer tr₁ ++ outer tr₂ := List.filterMap_append ..
@[simp] theorem inner_nil : inner ([] : Trace O R CO CR) = [] := rfl
@[simp] theorem outer_nil : outer ([] : Trace O R CO CR) = [] := rfl
@[simp] theorem inner?_mk (e : Event O R) : inner? (mkInner e : Event (CO ⊕ O) (CR ⊕ R)) = some e := by cases e <;> rfl
@[simp] theorem outer?_mk (e : Event O R) : outer? (mkInner e : Event (CO ⊕ O) (CR ⊕ R)) = none := by cases e <;> rfl

theorem inner_map (e : Option (Event O R)) : inner (e.map (mkInner (CO := CO) (CR := CR))).toList = e.toList := by
  cases e <;> simp [inner]
theorem outer_map (e : Option (Event O R)) : outer (e.map (mkInner (CO := CO) (CR := CR))).toList = [] := by
  cases e <;> simp [outer]

theorem tid_inner? {e : Event (CO ⊕ O) (CR ⊕ R)} {f : Event O R} (h : inner? e = some f) : f.tid = e.tid := by
  unfold inner? at h
  split at h <;> simp at h <;> subst h <;> rfl

theorem tid_outer? {e : Event (CO ⊕ O) (CR ⊕ R)} {f : Event CO CR} (h : outer? e = some f) : f.tid = e.tid := by
  unfold outer? at h
  split at h <;> simp at h <;> subst h <;> rfl

/-! ### Steps -/

/-- Inversion of the step function. -/
inductive CTrans (m : Mach S P Ch O R) (rt : Routine O R CO CR L) (call : O → Ch) (t : Nat) (s : S) :
    CPC P CR L → CChoice Ch CO → S → CPC P CR L → Option (Event (CO ⊕ O) (CR ⊕ R)) → Prop where
  | inv (o) : CTrans m rt call t s .out (.call o) s (.between (rt.start o)) (some (.inv t (.inl o)))
  | leave {l r} : rt.next l = .inr r → CTrans m rt call t s (.between l) .go s (.ret r) none
  | enter {l o s' p' e} : rt.next l = .inl o → m.step t s m.idle (call o) = some (s', p', e) →
      CTrans m rt call t s (.between l) .go s' (.within l p') (e.map mkInner)
  | finish {l p ch s' p' u r} : m.step t s p ch = some (s', p', some (.res u r)) →
      CTrans m rt call t s (.within l p) (.inner ch) s' (.between (rt.got l r)) (some (.res u (.inr r)))
  | inside {l p ch s' p' e} : m.step t s p ch = some (s', p', e) → (∀ u r, e ≠ some (.res u r)) →
      CTrans m rt call t s (.within l p) (.inner ch) s' (.within l p') (e.map mkInner)
  | res (r) : CTrans m rt call t s (.ret r) .go s .out (some (.res t (.inl r)))

theorem ctrans_of_step {t s p ch s' p' e} (hs : (m.client rt call).step t s p ch = some (s', p', e)) :
    CTrans m rt call t s p ch s' p' e := by
  simp only [Mach.client] at hs
  split at hs
  · cases hs; exact .inv _
  · split at hs
    · rename_i h1; cases hs; exact .leave h1
    · rename_i h1
      simp only [Option.map_eq_some_iff] at hs
      obtain ⟨⟨a, b, c⟩, h2, h3⟩ := hs
      cases h3
      exact .enter h1 h2
  · split at hs
    · cases hs
    · rename_i h1; cases hs; exact .finish h1
    · rename_i e' h1 h2
      cases hs
      exact .inside h2 (fun u r he => by subst he; simp_all)
  · cases hs; exact .res _
  · cases hs

/-- What is assumed about the machine of the container. -/
structure Mach.Callable (m : Mach S P Ch O R) (call : O → Ch) : Prop where
  lawful : m.Lawful
  /-- the choice `call o` invokes `o` -/
  call : ∀ t s o s' p' e, m.step t s m.idle (call o) = some (s', p', e) → e = some (.inv t o) ∧ p' ≠ m.idle
  /-- a call ends with a response only -/
  busy : ∀ t s p ch s' p', p ≠ m.idle → m.step t s p ch = some (s', p', none) → p' ≠ m.idle

/-- Events come from the thread that makes the step. -/
theorem CTrans.tid (hm : m.Callable call) {t s p ch s' p' e} (hs : CTrans m rt call t s p ch s' p' (some e)) : e.tid = t := by
  generalize hE : some e = E at hs
  cases hs with
  | inv | res => cases hE; rfl
  | leave => cases hE
  | @enter _ _ _ _ e' _ h2 | @inside _ _ _ _ _ e' h2 =>
    cases e' with
    | none => cases hE
    | some e' =>
      cases hE
      have := (hm.lawful.event h2).2
      cases e' <;> exact this
  | finish h2 =>
    cases hE
    exact (hm.lawful.event h2).2

theorem base_upd (C : MConf S (CPC P CR L)) (t : Nat) (s' : S) (p' : CPC P CR L) :
    m.base ⟨s', upd C.pc t p'⟩ = ⟨s', upd (fun u => m.basePC (C.pc u)) t (m.basePC p')⟩ := by
  simp only [Mach.base]
  congr 1
  funext u
  simp only [upd_apply]
  split <;> rfl

theorem base_same {C : MConf S (CPC P CR L)} {t : Nat} {p' : CPC P CR L}
    (h2 : m.basePC p' = m.basePC (C.pc t)) : m.base ⟨C.s, upd C.pc t p'⟩ = m.base C := by
  rw [base_upd, h2, upd_eq_self (fun u => m.basePC (C.pc u)) t]; rfl

/-- A step of the machine with routines is a step of the container or does nothing to it. -/
theorem base_step (hm : m.Callable call) {t ch s' p' e} (hs : (m.client rt call).step t C.s (C.pc t) ch = some (s', p', e))
    (hok : clientOk m rt call ok C.s (C.pc t) ch) :
    (m.base ⟨s', upd C.pc t p'⟩ = m.base C ∧ inner e.toList = []) ∨
    ∃ ch' q' f, m.step t (m.base C).s ((m.base C).pc t) ch' = some (s', q', f) ∧ ok (m.base C).s ((m.base C).pc t) ch' ∧
      m.base ⟨s', upd C.pc t p'⟩ = ⟨s', upd (m.base C).pc t q'⟩ ∧ inner e.toList = f.toList := by
  have hs' := ctrans_of_step hs
  generalize hp : C.pc t = p at hs' hok
  cases hs' with
  | inv o => exact .inl ⟨base_same (by rw [hp]; rfl), rfl⟩
  | leave _ => exact .inl ⟨base_same (by rw [hp]; rfl), rfl⟩
  | res r => exact .inl ⟨base_same (by rw [hp]; rfl), rfl⟩
  | @enter l o s' p' e h1 h2 =>
    have h3 : m.basePC (C.pc t) = m.idle := by rw [hp]; rfl
    exact .inr ⟨call o, p', e, by simp only [Mach.base]; rw [h3]; exact h2,
      by simp only [Mach.base]; rw [h3]; exact hok o h1, base_upd .., inner_map e⟩
  | @finish l p ch s' p' u r h2 =>
    have h3 : m.basePC (C.pc t) = p := by rw [hp]; rfl
    have h4 : p' = m.idle := by
      rcases hm.lawful _ _ _ _ _ _ _ h2 with ⟨_, _, h⟩ | ⟨_, _, h, _⟩
      · cases h
      · exact h
    subst h4
    exact .inr ⟨ch, m.idle, some (.res u r), by simp only [Mach.base]; rw [h3]; exact h2,
      by simp only [Mach.base]; rw [h3]; exact hok, base_upd .., rfl⟩
  | @inside l p ch s' p' e h2 _ =>
    have h3 : m.basePC (C.pc t) = p := by rw [hp]; rfl
    exact .inr ⟨ch, p', e, by simp only [Mach.base]; rw [h3]; exact h2,
      by simp only [Mach.base]; rw [h3]; exact hok, base_upd .., inner_map e⟩

/-- **The calls of the container form an execution of the container.** -/
theorem MSteps.inner (hm : m.Callable call) (hx : MSteps (m.client rt call) (clientOk m rt call ok) C₀ tr C) :
    MSteps m ok (m.base C₀) (inner tr) (m.base C) := by
  induction hx with
  | refl => exact .refl _
  | @step tr C t ch s' p' e hx hs hok ih =>
    rw [inner_append]
    rcases base_step hm hs hok with ⟨h1, h2⟩ | ⟨ch', q', f, h1, h2, h3, h4⟩
    · rw [h1, h2, List.append_nil]; exact ih
    · rw [h3, h4]; exact .step ih h1 h2

/-! ### The calls made by a call of a routine -/

/-- From local state `l`, the calls `cs` with their results lead to `l'`. -/
inductive Routine.Part (rt : Routine O R CO CR L) : L → List (O × R) → L → Prop where
  | nil (l) : rt.Part l [] l
  | snoc {l cs l' o r} : rt.Part l cs l' → rt.next l' = .inl o → rt.Part l (cs ++ [(o, r)]) (rt.got l' r)

/-- A call `o` of a routine may make the calls `cs` and return `r`. -/
def Routine.Body (rt : Routine O R CO CR L) (o : CO) (cs : List (O × R)) (r : CR) : Prop :=
  ∃ l, rt.Part (rt.start o) cs l ∧ rt.next l = .inr r

/-- Progress of a thread in a call of a routine, in terms of the calls `cs` it has made and the pending one. -/
def CPC.In (m : Mach S P Ch O R) (rt : Routine O R CO CR L) (o : CO) (cs : List (O × R)) : CPC P CR L → Option O → Prop
  | .out, _ => False
  | .between l, x => x = none ∧ rt.Part (rt.start o) cs l
  | .within l p, x => p ≠ m.idle ∧ rt.Part (rt.start o) cs l ∧ ∃ q, x = some q ∧ rt.next l = .inl q
  | .ret r, x => x = none ∧ rt.Body o cs r

/-- One step of thread `t` during its call. -/
theorem CTrans.progress (hm : m.Callable call) {t s p ch s' p' e} (hs : CTrans m rt call t s p ch s' p' e)
    {o : CO} {ds x} (hi : p.In m rt o ds x) (he : outer e.toList = []) :
    ∃ ds' x', p'.In m rt o ds' x' ∧
      ((inner e.toList = [] ∧ ds' = ds ∧ x' = x) ∨ (∃ q, inner e.toList = [.inv t q] ∧ x = none ∧ x' = some q ∧ ds' = ds) ∨
        ∃ q r, inner e.toList = [.res t r] ∧ x = some q ∧ x' = none ∧ ds' = ds ++ [(q, r)]) := by
  cases hs with
  | inv o => cases he
  | res o => cases he
  | leave h1 =>
    obtain ⟨rfl, h2⟩ := hi
    exact ⟨ds, none, ⟨rfl, _, h2, h1⟩, .inl ⟨rfl, rfl, rfl⟩⟩
  | @enter l q s' p' e h1 h2 =>
    obtain ⟨rfl, h3⟩ := hi
    obtain ⟨rfl, h4⟩ := hm.call _ _ _ _ _ _ h2
    exact ⟨ds, some q, ⟨h4, h3, q, rfl, h1⟩, .inr (.inl ⟨q, rfl, rfl, rfl, rfl⟩)⟩
  | @finish l p ch s' p' u r h2 =>
    obtain ⟨h3, h4, q, rfl, h5⟩ := hi
    have := (hm.lawful.event h2).2
    simp only [Event.tid] at this
    subst this
    exact ⟨ds ++ [(q, r)], none, ⟨rfl, .snoc h4 h5⟩, .inr (.inr ⟨q, r, rfl, rfl, rfl, rfl⟩)⟩
  | @inside l p ch s' p' e h2 h1 =>
    obtain ⟨h3, h4, q, rfl, h5⟩ := hi
    have he : e = none := by
      cases e with
      | none => rfl
      | some e =>
        rcases hm.lawful _ _ _ _ _ _ _ h2 with ⟨h, _⟩ | ⟨r, _, _, rfl⟩
        · exact absurd h h3
        · exact absurd rfl (h1 _ _)
    subst he
    exact ⟨ds, some q, ⟨hm.busy _ _ _ _ _ _ h3 h2, h4, q, rfl, h5⟩, .inl ⟨rfl, rfl, rfl⟩⟩

theorem Did.app {t : Nat} {h l : History O R} {cs : List (O × R)} {x x' : Option O} {cs' : List (O × R)}
    (hd : Did t h cs x)
    (hl : (l = [] ∧ cs' = cs ∧ x' = x) ∨ (∃ q, l = [.inv t q] ∧ x = none ∧ x' = some q ∧ cs' = cs) ∨
      ∃ q r, l = [.res t r] ∧ x = some q ∧ x' = none ∧ cs' = cs ++ [(q, r)]) : Did t (h ++ l) cs' x' := by
  rcases hl with ⟨rfl, rfl, rfl⟩ | ⟨q, rfl, rfl, rfl, rfl⟩ | ⟨q, r, rfl, rfl, rfl, rfl⟩
  · simpa using hd
  · exact hd.inv q
  · exact hd.res r

theorem Did.app_other {t t' : Nat} {h : History O R} {e : Option (Event (CO ⊕ O) (CR ⊕ R))} {cs x}
    (hd : Did t h cs x) (hne : t' ≠ t) (he : ∀ x, e = some x → x.tid = t') : Did t (h ++ Verif.inner e.toList) cs x := by
  cases e with
  | none => simpa using hd
  | some e =>
    simp only [Option.toList, Verif.inner, List.filterMap_cons, List.filterMap_nil]
    cases hf : inner? e with
    | none => simpa using hd
    | some f => exact hd.other (by rw [tid_inner? hf, he _ rfl]; exact hne)

theorem Did.app_other' {t t' : Nat} {h : History CO CR} {e : Option (Event (CO ⊕ O) (CR ⊕ R))} {cs x}
    (hd : Did t h cs x) (hne : t' ≠ t) (he : ∀ x, e = some x → x.tid = t') : Did t (h ++ Verif.outer e.toList) cs x := by
  cases e with
  | none => simpa using hd
  | some e =>
    simp only [Option.toList, Verif.outer, List.filterMap_cons, List.filterMap_nil]
    cases hf : outer? e with
    | none => simpa using hd
    | some f => exact hd.other (by rw [tid_outer? hf, he _ rfl]; exact hne)

/-- During a call. -/
theorem MSteps.during (hm : m.Callable call) {t : Nat} {o : CO} (hx : MSteps (m.client rt call) (clientOk m rt call ok) C₁ tr C)
    (h0 : C₁.pc t = .between (rt.start o)) (hno : ∀ e ∈ tr, e.tid = t → outer? e = none) :
    ∃ ds x, Did t (Verif.inner tr) ds x ∧ (C.pc t).In m rt o ds x := by
  induction hx with
  | refl => exact ⟨[], none, .nil _, by rw [h0]; exact ⟨rfl, .nil _⟩⟩
  | @step tr C t' ch s' p' e hx hs hok ih =>
    have hs' := ctrans_of_step hs
    obtain ⟨ds, x, h1, h2⟩ := ih fun e he => hno e (by simp [he])
    rw [inner_append]
    have htid : ∀ x, e = some x → x.tid = t' := by rintro x rfl; exact hs'.tid hm
    by_cases ht : t' = t
    · subst ht
      have he : Verif.outer e.toList = [] := by
        cases e with
        | none => rfl
        | some e => simp [Verif.outer, hno e (by simp) (htid _ rfl)]
      obtain ⟨ds', x', h3, h4⟩ := hs'.progress hm h2 he
      exact ⟨ds', x', h1.app h4, by simpa using h3⟩
    · exact ⟨ds, x, h1.app_other ht htid, by simpa only [upd_ne _ _ _ (Ne.symm ht)] using h2⟩

/-- The step that produces the first event of an execution. -/
theorem MSteps.first_event {S P Ch O R : Type} {m : Mach S P Ch O R} {ok : S → P → Ch → Prop} {C C₁ : MConf S P}
    {e : Event O R} {h : History O R} (hx : MSteps m ok C (e :: h) C₁) :
    ∃ C₂ t ch s' p', MSteps m ok C [] C₂ ∧ m.step t C₂.s (C₂.pc t) ch = some (s', p', some e) ∧ ok C₂.s (C₂.pc t) ch ∧
      MSteps m ok ⟨s', upd C₂.pc t p'⟩ h C₁ := by
  generalize hh : e :: h = h' at hx
  induction hx generalizing h with
  | refl => cases hh
  | @step h' C' t ch s' p' f hx hs hok ih =>
    cases f with
    | none =>
      obtain ⟨C₂, t₂, ch₂, s₂, p₂, h1, h2, h3, h4⟩ := ih (h := h) (by simpa using hh)
      exact ⟨C₂, t₂, ch₂, s₂, p₂, h1, h2, h3, by simpa using h4.step hs hok⟩
    | some f =>
      cases h' with
      | nil =>
        simp at hh
        obtain ⟨rfl, rfl⟩ := hh
        exact ⟨C', t, ch, s', p', hx, hs, hok, .refl _⟩
      | cons e' h' =>
        simp at hh
        obtain ⟨rfl, rfl⟩ := hh
        obtain ⟨C₂, t₂, ch₂, s₂, p₂, h1, h2, h3, h4⟩ := ih rfl
        exact ⟨C₂, t₂, ch₂, s₂, p₂, h1, h2, h3, h4.step hs hok⟩

/-- In `tr`, thread `t` calls the routine with `o` at position `i`; the call returns `r` at position `j`. -/
def RoutineCall (tr : Trace O R CO CR) (t i j : Nat) (o : CO) (r : CR) : Prop :=
  i < j ∧ tr[i]? = some (.inv t (.inl o)) ∧ tr[j]? = some (.res t (.inl r)) ∧
    ∀ k e, i < k → k < j → tr[k]? = some e → e.tid = t → outer? e = none

/-- The part of a trace strictly between positions `i` and `j`. -/
def strictly (tr : Trace O R CO CR) (i j : Nat) : Trace O R CO CR := (tr.take j).drop (i + 1)

theorem split_at_two {A : Type} {l : List A} {i j : Nat} {a b : A} (hij : i < j) (hi : l[i]? = some a) (hj : l[j]? = some b) :
    l = l.take i ++ (a :: ((l.take j).drop (i + 1) ++ b :: l.drop (j + 1))) := by
  have h1 : l = l.take j ++ b :: l.drop (j + 1) := by
    obtain ⟨h, rfl⟩ := List.getElem?_eq_some_iff.1 hj
    simp
  have hi' : (l.take j)[i]? = some a := by rw [List.getElem?_take_of_lt hij]; exact hi
  have h2 : l.take j = (l.take j).take i ++ a :: (l.take j).drop (i + 1) := by
    obtain ⟨h, rfl⟩ := List.getElem?_eq_some_iff.1 hi'
    rw [List.getElem_cons_drop, List.take_append_drop]
  rw [List.take_take, Nat.min_eq_left (Nat.le_of_lt hij)] at h2
  calc l = l.take j ++ b :: l.drop (j + 1) := h1
    _ = (l.take i ++ a :: (l.take j).drop (i + 1)) ++ b :: l.drop (j + 1) := by rw [← h2]
    _ = _ := by simp

/-- **Between its invocation and its return a call of a routine makes the calls `cs` of one of its bodies, and no others.** -/
theorem MSteps.window (hm : m.Callable call) (hx : MSteps (m.client rt call) (clientOk m rt call ok) C₀ tr C)
    {t i j : Nat} {o : CO} {r : CR} (hc : RoutineCall tr t i j o r) :
    ∃ cs, ofThread t (Verif.inner (strictly tr i j)) = callEvents t cs ∧ rt.Body o cs r := by
  obtain ⟨hij, hi, hj, hno⟩ := hc
  have hsp := split_at_two hij hi hj
  obtain ⟨Ca, _, hx⟩ := hx.split hsp
  obtain ⟨Cb, t₁, ch₁, s₁, p₁, h1, h2, h3, hx⟩ := hx.first_event
  obtain ⟨Cc, hx, hy⟩ := hx.split rfl
  obtain ⟨Cd, t₂, ch₂, s₂, p₂, h4, h5, _, _⟩ := hy.first_event
  have hxx := hx.trans h4
  rw [List.append_nil] at hxx
  have ht₁ : t₁ = t := by have := (ctrans_of_step h2).tid hm; exact this.symm
  have ht₂ : t₂ = t := by have := (ctrans_of_step h5).tid hm; exact this.symm
  subst ht₁
  obtain ⟨ds, x, h6, h7⟩ := hxx.during hm (t := t₁) (o := o) (by
      simp only [upd_self]
      have := ctrans_of_step h2
      generalize Cb.pc t₁ = p at this
      generalize hE : (some (Event.inv t₁ (.inl o)) : Option (Event (CO ⊕ O) (CR ⊕ R))) = E at this
      cases this with
      | inv => cases hE; rfl
      | leave | finish | res => cases hE
      | @enter _ _ _ _ e | @inside _ _ _ _ _ e => cases e with
        | none => cases hE
        | some e => cases e <;> cases hE) (by
      intro e he ht
      obtain ⟨k, hk⟩ := List.getElem?_of_mem he
      rw [List.getElem?_drop] at hk
      by_cases hkj : i + 1 + k < j
      · rw [List.getElem?_take_of_lt hkj] at hk
        exact hno _ _ (by omega) hkj hk ht
      · rw [List.getElem?_take_eq_none (by omega)] at hk; cases hk)
  have h8 : Cd.pc t₁ = .ret r := by
    rw [ht₂] at h5
    have := ctrans_of_step h5
    generalize Cd.pc t₁ = p at this
    generalize hE : (some (Event.res t₁ (.inl r)) : Option (Event (CO ⊕ O) (CR ⊕ R))) = E at this
    cases this with
    | inv | leave | finish => cases hE
    | res => cases hE; rfl
    | @enter _ _ _ _ e | @inside _ _ _ _ _ e => cases e with
      | none => cases hE
      | some e => cases e <;> cases hE
  rw [h8] at h7
  obtain ⟨rfl, h7⟩ := h7
  exact ⟨ds, h6, h7⟩

/-- The calls of the container made by a thread are those of its routine calls, one after the other. -/
inductive Routine.Bodies (rt : Routine O R CO CR L) : List (CO × CR) → List (O × R) → Prop where
  | nil : rt.Bodies [] []
  | snoc {Cs cs o r ds} : rt.Bodies Cs cs → rt.Body o ds r → rt.Bodies (Cs ++ [(o, r)]) (cs ++ ds)

/-- Invariant of thread `t`. -/
def CGood (m : Mach S P Ch O R) (rt : Routine O R CO CR L) (t : Nat) (tr : Trace O R CO CR) (p : CPC P CR L) : Prop :=
  (p = .out ∧ ∃ Cs cs, Did t (Verif.outer tr) Cs none ∧ Did t (Verif.inner tr) cs none ∧ rt.Bodies Cs cs) ∨
  ∃ Cs cs o ds x, Did t (Verif.outer tr) Cs (some o) ∧ Did t (Verif.inner tr) (cs ++ ds) x ∧ rt.Bodies Cs cs ∧ p.In m rt o ds x

theorem MSteps.cgood (hm : m.Callable call) {s₀ : S}
    (hx : MSteps (m.client rt call) (clientOk m rt call ok) (outside s₀) tr C) (t : Nat) : CGood m rt t tr (C.pc t) := by
  induction hx with
  | refl => exact .inl ⟨rfl, [], [], .nil _, .nil _, .nil⟩
  | @step tr C t' ch s' p' e hx hs hok ih =>
    have hs' := ctrans_of_step hs
    have htid : ∀ x, e = some x → x.tid = t' := by rintro x rfl; exact hs'.tid hm
    simp only [CGood, inner_append, outer_append]
    by_cases ht : t' = t
    · subst ht
      simp only [upd_self]
      rcases ih with ⟨h1, Cs, cs, h2, h3, h4⟩ | ⟨Cs, cs, o, ds, x, h2, h3, h4, h5⟩
      · rw [h1] at hs'
        cases hs' with
        | inv o => exact .inr ⟨Cs, cs, o, [], none, h2.inv o, by rw [List.append_nil]; exact (List.append_nil _).symm ▸ h3, h4, rfl, .nil _⟩
      · by_cases he : Verif.outer e.toList = []
        · obtain ⟨ds', x', h7, h8⟩ := hs'.progress hm h5 he
          refine .inr ⟨Cs, cs, o, ds', x', by rw [he]; simpa using h2, ?_, h4, h7⟩
          refine h3.app ?_
          rcases h8 with ⟨h8, rfl, rfl⟩ | ⟨q, h8, rfl, rfl, rfl⟩ | ⟨q, r, h8, rfl, rfl, rfl⟩
          · exact .inl ⟨h8, rfl, rfl⟩
          · exact .inr (.inl ⟨q, h8, rfl, rfl, rfl⟩)
          · exact .inr (.inr ⟨q, r, h8, rfl, rfl, by simp⟩)
        · generalize C.pc t' = p at hs' h5
          cases hs' with
          | inv o => exact h5.elim
          | leave => exact absurd rfl he
          | enter => exact absurd (outer_map _) he
          | inside => exact absurd (outer_map _) he
          | finish => exact absurd rfl he
          | res r =>
            obtain ⟨rfl, h6⟩ := h5
            exact .inl ⟨rfl, _, _, h2.res r, (List.append_nil (Verif.inner tr)).symm ▸ h3, .snoc h4 h6⟩
    · simp only [upd_ne _ _ _ (Ne.symm ht)]
      rcases ih with ⟨h1, Cs, cs, h2, h3, h4⟩ | ⟨Cs, cs, o, ds, x, h2, h3, h4, h5⟩
      · exact .inl ⟨h1, Cs, cs, h2.app_other' ht htid, h3.app_other ht htid, h4⟩
      · exact .inr ⟨Cs, cs, o, ds, x, h2.app_other' ht htid, h3.app_other ht htid, h4, h5⟩

/-- **The calls of the container made by a thread are those of its routine calls, in order.** (The thread being outside.) -/
theorem MSteps.bodies (hm : m.Callable call) {s₀ : S}
    (hx : MSteps (m.client rt call) (clientOk m rt call ok) (outside s₀) tr C) {t : Nat} (ht : C.pc t = .out) :
    rt.Bodies (callsOf t (Verif.outer tr)) (callsOf t (Verif.inner tr)) := by
  rcases hx.cgood hm t with ⟨_, Cs, cs, h2, h3, h4⟩ | ⟨_, _, _, _, _, _, _, _, h5⟩
  · rw [h2.callsOf, h3.callsOf]; exact h4
  · rw [ht] at h5; exact h5.elim

end Verif
