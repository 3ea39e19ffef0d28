import Verif.LockFree
import Verif.Threads
import Verif.Weak

/-!
# Structured programs

No code of /repo is modelled here. A small language with the control structures used by the member functions of /repo: sequences,
`if`, `for ( ;; )`, `break`, `continue`, `return`, calls of functions, `try` / `catch`. Its elementary statements are computations on local
variables, and *accesses*: one access to shared memory, or a call of user code or of the allocator. `Stack/Text`, `Queue/Text` and `Spsc/Text`
write the member functions in it, line by line.
-/

namespace Verif.Text
open Lin

variable {S L Ch O R : Type}

/-- How the program continues after an access. -/
inductive Flow where
  | next
  /-- an exception is thrown -/
  | throws
  /-- undefined behaviour -/
  | ub

/-- The atomic objects of stack and queue. -/
inductive Obj where
  | tos
  | head
  | tail
  | pool
  /-- the `next` word of a node of a queue -/
  | next (n : Nat)

/-- What an access is for the memory model. Sequentially consistent executions do not depend on it. -/
inductive Kind (L Ch : Type) where
  /-- accesses to the nodes `ns`, which are not atomic -/
  | plain (ns : List Nat)
  | load (x : Obj) (ord : Order)
  /-- a compare-exchange (`memory_order_seq_cst`); `won`: whether it was successful -/
  | cas (x : Obj) (won : L → Bool)
  /-- a read of node `n` that may race with accesses of the thread that owns the node; `race`: what remains in the local variables if it does -/
  | spec (n : Nat) (race : Ch → Option L)
  /-- a load of `x` or, with the other order of evaluation, of `y` -/
  | first (x y : Obj) (ord : Order)
  /-- `compare_exchange_strong`: fails only if it reads another value -/
  | casStrong (x : Obj) (won : L → Bool)
  /-- a compare-exchange after which, if it is successful, the thread has taken what it read from the nodes `ns` -/
  | casTaking (x : Obj) (won : L → Bool) (ns : List Nat)
  /-- a store to the `next` word of node `n` of a queue, `atomic` with `memory_order_release` or not; `ns`: nodes accessed -/
  | store (n : Nat) (atomic : Bool) (ns : List Nat)
  /-- a copy of the payload of node `n`, which may have been taken by another thread; `race`: what remains in the local variables if it has -/
  | copy (n : Nat) (race : Ch → Option L)

/-- One access to shared memory, or a call of user code or of the allocator, by a thread; `Ch` resolves its nondeterminism. `ok`: assumption made
when the access is executed. `kind`: what the access is for the memory model. -/
structure Access (S L Ch : Type) where
  run : Nat → S → L → Ch → Option (S × L × Flow)
  ok : S → L → Ch → Bool := fun _ _ _ => true
  kind : L → Kind L Ch := fun _ => .plain []

/-- Statements; `L`: local variables. -/
inductive Stm (S L Ch : Type) where
  | acc (a : Access S L Ch)
  | set (f : L → L)
  | seq (a b : Stm S L Ch)
  | ite (c : L → Bool) (a b : Stm S L Ch)
  | forever (a : Stm S L Ch)
  | brk
  | cont
  | ret
  /-- a called function: `ret` in `a` ends `a` only -/
  | fn (a : Stm S L Ch)
  | tryCatch (a b : Stm S L Ch)
  | rethrow

/-- `a ;; b`: first `a`, then `b`. -/
infixr:30 " ;; " => Stm.seq

/-- Nothing. -/
def Stm.skip : Stm S L Ch := .set id

/-- What follows the first `n` statements of a sequence. -/
def Stm.drop : Nat → Stm S L Ch → Stm S L Ch
  | 0, a => a
  | n + 1, .seq _ b => b.drop n
  | _, a => a

/-- What remains to be executed: statements, and marks for the end of a loop body, of a function, of a `try` block. -/
inductive Item (S L Ch : Type) where
  | stm (a : Stm S L Ch)
  | loop (a : Stm S L Ch)
  | fn
  | handler (b : Stm S L Ch)

abbrev Rest (S L Ch : Type) := List (Item S L Ch)

/-- What remains after `break`. -/
def afterLoop : Rest S L Ch → Rest S L Ch
  | [] => []
  | .loop _ :: k => k
  | _ :: k => afterLoop k

/-- What remains after `continue`. -/
def toLoop : Rest S L Ch → Rest S L Ch
  | [] => []
  | .loop a :: k => .loop a :: k
  | _ :: k => toLoop k

/-- What remains after `return`. -/
def afterFn : Rest S L Ch → Rest S L Ch
  | [] => []
  | .fn :: k => k
  | _ :: k => afterFn k

/-- What remains after an exception. -/
def toHandler : Rest S L Ch → Rest S L Ch
  | [] => []
  | .handler b :: k => .stm b :: k
  | _ :: k => toHandler k

/-- Execution up to the next access: one step. -/
def ctl (l : L) : Rest S L Ch → Option (L × Rest S L Ch)
  | [] => none
  | .stm (.acc _) :: _ => none
  | .stm (.set f) :: k => some (f l, k)
  | .stm (.seq a b) :: k => some (l, .stm a :: .stm b :: k)
  | .stm (.ite c a b) :: k => some (l, .stm (if c l then a else b) :: k)
  | .stm (.forever a) :: k => some (l, .stm a :: .loop a :: k)
  | .stm .brk :: k => some (l, afterLoop k)
  | .stm .cont :: k => some (l, toLoop k)
  | .stm .ret :: k => some (l, afterFn k)
  | .stm (.fn a) :: k => some (l, .stm a :: .fn :: k)
  | .stm (.tryCatch a b) :: k => some (l, .stm a :: .handler b :: k)
  | .stm .rethrow :: k => some (l, toHandler k)
  | .loop a :: k => some (l, .stm a :: .loop a :: k)
  | .fn :: k => some (l, k)
  | .handler _ :: k => some (l, k)

/-- Program counter of a thread. -/
inductive TPC (S L Ch R : Type) where
  | idle
  | run (l : L) (k : Rest S L Ch)
  | ret (r : R)
  | err

/-- Resolution of nondeterminism. -/
inductive TChoice (Ch O : Type) where
  | call (o : O)
  /-- a step without access -/
  | tau
  | act (ch : Ch)
  /-- something the thread does outside the calls of this class -/
  | env (ch : Ch)

/-- The member functions of a class: what a call of a thread executes, with which local variables, and where the result is found. `env`: what a thread can
do to the shared state at any time, without executing a member function. -/
structure Program (S L Ch O R : Type) where
  body : Nat → O → Option (L × Stm S L Ch)
  result : L → R
  env : Nat → S → Ch → Option S := fun _ _ _ => none

/-- The machine that executes a program. -/
def Program.mach (P : Program S L Ch O R) : Mach S (TPC S L Ch R) (TChoice Ch O) O R where
  step t s
    | .idle, .call o => (P.body t o).map fun x => (s, .run x.1 [.stm x.2], some (.inv t o))
    | .run l [], .tau => some (s, .ret (P.result l), none)
    | .run l k, .tau => (ctl l k).map fun x => (s, .run x.1 x.2, none)
    | .run l (.stm (.acc a) :: k), .act ch =>
      match a.run t s l ch with
      | none => none
      | some (s', l', .next) => some (s', .run l' k, none)
      | some (s', l', .throws) => some (s', .run l' (toHandler k), none)
      | some (s', _, .ub) => some (s', .err, none)
    | .ret r, .tau => some (s, .idle, some (.res t r))
    | p, .env ch => (P.env t s ch).map fun s' => (s', p, none)
    | _, _ => none
  idle := .idle
  ret := .ret

/-- Assumptions about a step: about the calls that are made, and those of the access. -/
def Program.ok (okCall : S → O → Prop) (s : S) : TPC S L Ch R → TChoice Ch O → Prop
  | .idle, .call o => okCall s o
  | .run l (.stm (.acc a) :: _), .act ch => a.ok s l ch = true
  | _, _ => True

/-! ### Refinement -/

/-- A number of steps without access. -/
inductive Reach : Nat → L → Rest S L Ch → L → Rest S L Ch → Prop where
  | refl {l k} : Reach 0 l k l k
  | step {n l k l₁ k₁ l₂ k₂} : ctl l k = some (l₁, k₁) → Reach n l₁ k₁ l₂ k₂ → Reach (n + 1) l k l₂ k₂

theorem Reach.trans {n n' : Nat} {l l' l'' : L} {k k' k'' : Rest S L Ch} (h1 : Reach n l k l' k') (h2 : Reach n' l' k' l'' k'') :
    Reach (n + n') l k l'' k'' := by
  induction h1 with
  | refl => simpa using h2
  | step h _ ih => rw [Nat.add_right_comm]; exact .step h (ih h2)

theorem Reach.tt {n : Nat} {l l' : L} {k k' : Rest S L Ch} {c a b} (h : c l = true) (hr : Reach n l (.stm a :: k) l' k') :
    Reach (n + 1) l (.stm (.ite c a b) :: k) l' k' := .step (by simp [ctl, h]) hr

theorem Reach.ff {n : Nat} {l l' : L} {k k' : Rest S L Ch} {c a b} (h : c l = false) (hr : Reach n l (.stm b :: k) l' k') :
    Reach (n + 1) l (.stm (.ite c a b) :: k) l' k' := .step (by simp [ctl, h]) hr

/-- What remains after an access. -/
def Flow.rest (k : Rest S L Ch) : Flow → Rest S L Ch
  | .throws => toHandler k
  | _ => k

/-- `a` after undefined behaviour, otherwise `b`. -/
def Flow.ifUb (a b : Prop) : Flow → Prop
  | .ub => a
  | _ => b

/-- At most `n` steps without access lead to a place that `At` relates to `p`. -/
def Leads {PC : Type} (n : Nat) (At : L → Rest S L Ch → PC → Prop) (l : L) (k : Rest S L Ch) (p : PC) : Prop :=
  ∃ m l' k', m ≤ n ∧ Reach m l k l' k' ∧ At l' k' p

section
variable {PC : Type} {At : L → Rest S L Ch → PC → Prop} {l l' : L} {k k' : Rest S L Ch} {p : PC} {n : Nat}

theorem Leads.here (h : At l k p) : Leads n At l k p := ⟨0, l, k, Nat.zero_le _, .refl, h⟩

theorem Leads.mono {n' : Nat} (hn : n ≤ n') (h : Leads n At l k p) : Leads n' At l k p := by
  obtain ⟨m, l₁, k₁, h0, h1, h2⟩ := h
  exact ⟨m, l₁, k₁, by omega, h1, h2⟩

theorem Leads.reach {a b : Nat} (h : Reach a l k l' k') (hl : Leads b At l' k' p) (hn : a + b ≤ n := by decide) : Leads n At l k p := by
  obtain ⟨m, l₁, k₁, h0, h1, h2⟩ := hl
  exact ⟨a + m, l₁, k₁, by omega, h.trans h1, h2⟩

theorem Leads.step (h : Text.ctl l k = some (l', k')) (hl : Leads n At l' k' p) : Leads (n + 1) At l k p :=
  Leads.reach (.step h .refl) hl (by omega)

theorem Leads.tt {c a b} (h : c l = true) (hl : Leads n At l (.stm a :: k) p) : Leads (n + 1) At l (.stm (.ite c a b) :: k) p :=
  Leads.reach (.tt h .refl) hl (by omega)

theorem Leads.ff {c a b} (h : c l = false) (hl : Leads n At l (.stm b :: k) p) : Leads (n + 1) At l (.stm (.ite c a b) :: k) p :=
  Leads.reach (.ff h .refl) hl (by omega)
end

/-- Executes steps without access. -/
macro "leads" : tactic => `(tactic|
  ((repeat (first
    | (refine Leads.tt ?_ ?_; (focus first | rfl | (simp [*]; done)))
    | (refine Leads.ff ?_ ?_; (focus first | rfl | (simp [*]; done)))
    | refine Leads.step rfl ?_)); refine Leads.here ?_))

/-- The machine makes a step that depends on nothing and changes only the program counter, and can make no other. `sp`: the choices that are
spurious failures. -/
def Silent {PC : Type} (m : Mach S PC Ch O R) (okm : S → PC → Ch → Prop) (sp : Ch → Bool) (p p' : PC) : Prop :=
  ∀ t s, (∃ ch, sp ch = false ∧ okm s p ch ∧ m.step t s p ch = some (s, p', none)) ∧ ∀ ch y, m.step t s p ch = some y → y = (s, p', none)

/-- `Q` holds, perhaps after one such step. -/
def Soon {PC : Type} (m : Mach S PC Ch O R) (okm : S → PC → Ch → Prop) (sp : Ch → Bool) (Q : PC → Prop) (p : PC) : Prop :=
  Q p ∨ ∃ p', Silent m okm sp p p' ∧ Q p'

section
variable {PC : Type} {m : Mach S PC Ch O R} {okm : S → PC → Ch → Prop} {sp : Ch → Bool} {At : L → Rest S L Ch → PC → Prop} {l l' : L}
  {k k' : Rest S L Ch} {p : PC} {n : Nat}

theorem Soon.mono {n' : Nat} (h : Soon m okm sp (Leads n At l k) p) (hn : n ≤ n' := by decide) : Soon m okm sp (Leads n' At l k) p := by
  rcases h with h | ⟨p', h1, h2⟩
  · exact .inl (h.mono hn)
  · exact .inr ⟨p', h1, h2.mono hn⟩

theorem Soon.reach {a b : Nat} (h : Reach a l k l' k') (hl : Soon m okm sp (Leads b At l' k') p) (hn : a + b ≤ n := by decide) :
    Soon m okm sp (Leads n At l k) p := by
  rcases hl with hl | ⟨p', h1, h2⟩
  · exact .inl (Leads.reach h hl hn)
  · exact .inr ⟨p', h1, Leads.reach h h2 hn⟩
end

/-- `At l k p`: a thread with local variables `l` that has `k` to execute, where `k` is empty or starts with an access, does what a thread of
the machine the machine `m` at `p` does. `err`: undefined behaviour. `I`: an invariant of the threads of `m`. `B`: a bound for the number of steps without access. -/
structure Refines (P : Program S L Ch O R) {PC : Type} (m : Mach S PC Ch O R) (okCall : S → O → Prop) (okm : S → PC → Ch → Prop)
    (sp : Ch → Bool) (err : PC) (I : Nat → S → PC → Prop) (At : L → Rest S L Ch → PC → Prop) (B : Nat) : Prop where
  /-- the beginning of a call -/
  call : ∀ t s o l a, P.body t o = some (l, a) → okCall s o →
    ∃ ch p, sp ch = false ∧ okm s m.idle ch ∧ m.step t s m.idle ch = some (s, p, some (.inv t o)) ∧
      Soon m okm sp (Leads B At l [.stm a]) p
  /-- only at accesses and at the end -/
  head : ∀ l k p, At l k p → ctl l k = none
  /-- an access -/
  access : ∀ t s l a k p ch s' l' f, I t s p → At l (.stm (.acc a) :: k) p → a.ok s l ch = true → a.run t s l ch = some (s', l', f) →
    ∃ p', okm s p ch ∧ m.step t s p ch = some (s', p', none) ∧ f.ifUb (p' = err) (Soon m okm sp (Leads B At l' (f.rest k)) p')
  /-- the end -/
  fin : ∀ l p, At l [] p → p = m.ret (P.result l)
  /-- the response -/
  res : ∀ t s r, ∃ ch, sp ch = false ∧ okm s (m.ret r) ch ∧ m.step t s (m.ret r) ch = some (s, m.idle, some (.res t r))
  /-- what threads do outside the calls -/
  env : ∀ t s p ch s', P.env t s ch = some s' → okm s p ch ∧ m.step t s p ch = some (s', p, none)

variable {P : Program S L Ch O R} {PC : Type} {m : Mach S PC Ch O R} {okCall : S → O → Prop} {okm : S → PC → Ch → Prop}
  {sp : Ch → Bool} {err : PC} {I : Nat → S → PC → Prop} {At : L → Rest S L Ch → PC → Prop} {B : Nat}

/-- Related program counters; `n`: steps the thread can make without access. -/
def PCRel (m : Mach S PC Ch O R) (err : PC) (At : L → Rest S L Ch → PC → Prop) (n : Nat) : TPC S L Ch R → PC → Prop
  | .idle, p => p = m.idle
  | .run l k, p => ∃ n', n = n' + 1 ∧ Leads n' At l k p
  | .ret r, p => p = m.ret r
  | .err, p => p = err

theorem Leads.ctl {n : Nat} {l l' : L} {k k' : Rest S L Ch} {p : PC} (hr : Refines P m okCall okm sp err I At B) (hl : Leads n At l k p)
    (hc : ctl l k = some (l', k')) : ∃ n', n = n' + 1 ∧ Leads n' At l' k' p := by
  obtain ⟨a, l₁, k₁, h0, h1, h2⟩ := hl
  cases h1 with
  | refl => rw [hr.head _ _ _ h2] at hc; simp at hc
  | @step i _ _ _ _ _ _ h3 h4 => rw [h3] at hc; cases hc; exact ⟨n - 1, by omega, i, _, _, by omega, h4, h2⟩

theorem Leads.stuck {n : Nat} {l : L} {k : Rest S L Ch} {p : PC} (hl : Leads n At l k p) (hc : Text.ctl l k = none) : At l k p := by
  obtain ⟨_, l₁, k₁, _, h1, h2⟩ := hl
  cases h1 with
  | refl => exact h2
  | step h3 h4 => rw [h3] at hc; simp at hc

variable {sw : PC → Ch → Bool}

/-- Steps of one thread, counted: `a` ordinary ones and `b` spurious failures. -/
inductive Moves (m : Mach S PC Ch O R) (okm : S → PC → Ch → Prop) (sw : PC → Ch → Bool) (t : Nat) (s : S) (p : PC) :
    History O R → S → PC → Nat → Nat → Prop where
  | stay : Moves m okm sw t s p [] s p 0 0
  | step {h s₁ p₁ a b ch s' p' e} : Moves m okm sw t s p h s₁ p₁ a b → okm s₁ p₁ ch → m.step t s₁ p₁ ch = some (s', p', e) →
      Moves m okm sw t s p (h ++ e.toList) s' p' (a + if sw p₁ ch then 0 else 1) (b + if sw p₁ ch then 1 else 0)

theorem Moves.counted {t s p h s' p' a b} (hm : Moves m okm sw t s p h s' p' a b) {T C₀ h₀ k f} {D : MConf S PC} (ht : t < T) (hs : D.s = s)
    (hp : D.pc t = p) (hx : Counted m okm sw T C₀ h₀ D k f) :
    Counted m okm sw T C₀ (h₀ ++ h) ⟨s', upd D.pc t p'⟩ (k + a) (f + b) := by
  obtain ⟨_, pc⟩ := D
  cases (show _ = s from hs)
  cases (show pc t = p from hp)
  induction hm with
  | stay => simpa [upd_eq_self] using hx
  | @step h s₁ p₁ a b ch s' p' e _ hok hs ih =>
    have hs : m.step t s₁ (upd pc t p₁ t) ch = some (s', p', e) := by rw [upd_self]; exact hs
    have hok : okm s₁ (upd pc t p₁ t) ch := by rw [upd_self]; exact hok
    have hc' : ∀ x, sw (upd pc t p₁ t) x = sw p₁ x := fun x => by rw [upd_self]
    cases hc : sw p₁ ch with
    | true => simpa [hc, upd_upd, Nat.add_assoc] using Counted.fail ih ht hs hok ((hc' ch).trans hc)
    | false => simpa [hc, upd_upd, Nat.add_assoc] using Counted.step ih ht hs hok ((hc' ch).trans hc)

theorem Moves.one {t s p ch s' p' e} (hok : okm s p ch) (hs : m.step t s p ch = some (s', p', e)) :
    Moves m okm sw t s p e.toList s' p' (if sw p ch then 0 else 1) (if sw p ch then 1 else 0) := by
  simpa using Moves.stay.step hok hs (sw := sw)

theorem Moves.trans {t s p h s' p' a b h' s'' p'' a' b'} (h1 : Moves m okm sw t s p h s' p' a b)
    (h2 : Moves m okm sw t s' p' h' s'' p'' a' b') : Moves m okm sw t s p (h ++ h') s'' p'' (a + a') (b + b') := by
  induction h2 with
  | stay => simpa using h1
  | step _ hok hs ih => simpa [Nat.add_assoc] using ih.step hok hs

theorem Soon.moves {Q : PC → Prop} {t s p ch s' p₁ e} (hw : ∀ p ch, sw p ch = true → sp ch = true) (hok : okm s p ch) (hs : m.step t s p ch = some (s', p₁, e))
    (hp : Soon m okm sp Q p₁) :
    ∃ p' c, Q p' ∧ Moves m okm sw t s p e.toList s' p' ((if sw p ch then 0 else 1) + c) (if sw p ch then 1 else 0) := by
  have h1 := Moves.one (sw := sw) hok hs
  rcases hp with hp | ⟨p', h2, h3⟩
  · exact ⟨p₁, 0, hp, h1⟩
  · obtain ⟨⟨ch', h5, h6, h7⟩, -⟩ := h2 t s'
    have h8 := h1.trans (Moves.one (sw := sw) h6 h7)
    rw [show sw p₁ ch' = false from Bool.eq_false_iff.mpr fun h => by rw [hw _ _ h] at h5; cases h5] at h8
    exact ⟨p', 1, h3, by simpa using h8⟩

/-- The choices of a program that are spurious failures. -/
def spurious (sp : Ch → Bool) (_ : TPC S L Ch R) : TChoice Ch O → Bool
  | .act ch | .env ch => sp ch
  | _ => false

/-- What counts as a spurious failure: `st` for the program, `sw` for the machine. -/
structure Failures (P : Program S L Ch O R) (sp : Ch → Bool) (At : L → Rest S L Ch → PC → Prop) (st : TPC S L Ch R → TChoice Ch O → Bool)
    (sw : PC → Ch → Bool) : Prop where
  sub : ∀ p ch, sw p ch = true → sp ch = true
  call : ∀ q o, st q (.call o) = false
  tau : ∀ q, st q .tau = false
  env : ∀ t s q p ch s', P.env t s ch = some s' → st q (.env ch) = sw p ch
  act : ∀ t s l a k p ch y, At l (.stm (.acc a) :: k) p → a.run t s l ch = some y → st (.run l (.stm (.acc a) :: k)) (.act ch) = sw p ch

theorem Failures.all : Failures P sp At (spurious sp) fun _ => sp where
  sub _ _ h := h
  call _ _ := rfl
  tau _ := rfl
  env _ _ _ _ _ _ _ := rfl
  act _ _ _ _ _ _ _ _ _ _ := rfl

variable {st : TPC S L Ch R → TChoice Ch O → Bool}

/-- One step of the program: none, one or two steps of the machine, and the number of steps the thread can make without access. -/
theorem Refines.step (hr : Refines P m okCall okm sp err I At B) (hS : Failures P sp At st sw) {t s q ch s' q' e p n} (hI : I t s p) (hq : PCRel m err At n q p)
    (hs : P.mach.step t s q ch = some (s', q', e)) (hok : Program.ok okCall s q ch) :
    ∃ p' n' a, PCRel m err At n' q' p' ∧ Moves m okm sw t s p e.toList s' p' a (if st q ch then 1 else 0) ∧
      n' + 1 ≤ n + (B + 2) * (a + if st q ch then 1 else 0) ∧ ∀ x, ch = .env x → n' = n := by
  simp only [Program.mach] at hs
  split at hs
  · rename_i o
    simp at hs
    obtain ⟨l, a, h1, rfl, rfl, rfl⟩ := hs
    obtain ⟨ch', p', h2, h3, h4, h5⟩ := hr.call t s o l a h1 hok
    cases (show p = m.idle from hq)
    obtain ⟨p₁, c, h6, h7⟩ := Soon.moves hS.sub h3 h4 h5
    have h8 : sw m.idle ch' = false := Bool.eq_false_iff.mpr fun h => by rw [hS.sub _ _ h] at h2; cases h2
    refine ⟨p₁, B + 1, 1 + c, ⟨B, rfl, h6⟩, by simpa [h8, hS.call] using h7, ?_, by simp⟩
    simp only [hS.call, Nat.mul_add]; omega
  · simp at hs
    obtain ⟨rfl, rfl, rfl⟩ := hs
    obtain ⟨n', rfl, hl⟩ : ∃ n', n = n' + 1 ∧ Leads n' At _ _ p := hq
    exact ⟨p, n', 0, hr.fin _ p (Leads.stuck hl rfl), by simpa [hS.tau] using .stay, by simp [hS.tau], by simp⟩
  · simp at hs
    obtain ⟨l, k, h1, rfl, rfl, rfl⟩ := hs
    obtain ⟨n', rfl, hl⟩ : ∃ n', n = n' + 1 ∧ Leads n' At _ _ p := hq
    obtain ⟨n'', rfl, hl'⟩ := Leads.ctl hr hl h1
    exact ⟨p, n'' + 1, 0, ⟨_, rfl, hl'⟩, by simpa [hS.tau] using .stay, by simp [hS.tau], by simp⟩
  · rename_i l a k ch
    obtain ⟨n'', rfl, hl⟩ : ∃ n', n = n' + 1 ∧ Leads n' At _ _ p := hq
    have h1 := Leads.stuck hl rfl
    have go : ∀ {s' l' f}, a.run t s l ch = some (s', l', f) → f ≠ .ub → ∃ p' n' a', PCRel m err At n' (.run l' (f.rest k)) p' ∧
        Moves m okm sw t s p [] s' p' a' (if sw p ch then 1 else 0) ∧
        n' + 1 ≤ n'' + 1 + (B + 2) * (a' + if sw p ch then 1 else 0) ∧ ∀ x, (TChoice.act ch : TChoice Ch O) = .env x → n' = n'' + 1 := by
      intro s' l' f h2 hf
      obtain ⟨p', h3, h4, h5⟩ := hr.access t s l a k p ch _ _ _ hI h1 hok h2
      obtain ⟨p₁, c, h6, h7⟩ := Soon.moves hS.sub h3 h4 (show Soon m okm sp (Leads B At l' (f.rest k)) p' by cases f <;> simp_all [Flow.ifUb])
      refine ⟨p₁, B + 1, _, ⟨B, rfl, h6⟩, h7, ?_, by simp⟩
      by_cases hc : sw p ch = true <;> simp [hc, Nat.mul_add] <;> omega
    split at hs
    · simp at hs
    · simp at hs
      obtain ⟨rfl, rfl, rfl⟩ := hs
      rw [hS.act t s l a k p ch _ h1 (by assumption)]
      exact go (by assumption) (by simp)
    · simp at hs
      obtain ⟨rfl, rfl, rfl⟩ := hs
      rw [hS.act t s l a k p ch _ h1 (by assumption)]
      exact go (by assumption) (by simp)
    · rename_i h2
      simp at hs
      obtain ⟨rfl, rfl, rfl⟩ := hs
      obtain ⟨p', h3, h4, h5⟩ := hr.access t s l a k p ch _ _ _ hI h1 hok h2
      rw [hS.act t s l a k p ch _ h1 h2]
      refine ⟨p', 0, _, h5, Moves.one h3 h4, ?_, by simp⟩
      by_cases hc : sw p ch = true <;> simp [hc] <;> omega
  · rename_i r
    simp at hs
    obtain ⟨rfl, rfl, rfl⟩ := hs
    obtain ⟨ch', h1, h2, h3⟩ := hr.res t s r
    cases (show p = m.ret r from hq)
    have h4 : sw (m.ret r) ch' = false := Bool.eq_false_iff.mpr fun h => by rw [hS.sub _ _ h] at h1; cases h1
    refine ⟨m.idle, 0, 1, rfl, by simpa [h4, hS.tau] using Moves.one (sw := sw) h2 h3, ?_, by simp⟩
    simp [hS.tau]; omega
  · simp at hs
    obtain ⟨h1, rfl, rfl⟩ := hs
    obtain ⟨h2, h3⟩ := hr.env t s p _ _ h1
    rename_i ch
    rw [hS.env t s _ p ch _ h1]
    refine ⟨p, n, _, hq, Moves.one h2 h3, ?_, fun _ _ => rfl⟩
    by_cases hc : sw p ch = true <;> simp [hc]
  · simp at hs

/-- Every execution of the program is one of the machine: same history, same shared state, and the number of steps differs by a constant
factor. -/
theorem Refines.counted (hr : Refines P m okCall okm sp err I At B) (hS : Failures P sp At st sw) {s₀ : S}
    (hI : ∀ h D, MSteps m okm ⟨s₀, fun _ => m.idle⟩ h D → ∀ t, I t D.s (D.pc t)) {T h C₁ k f}
    (hx : Counted P.mach (Program.ok okCall) st T ⟨s₀, fun _ => .idle⟩ h C₁ k f) :
    ∃ (D : MConf S PC) (k' : Nat) (r : Nat → Nat), Counted m okm sw T ⟨s₀, fun _ => m.idle⟩ h D k' f ∧ D.s = C₁.s ∧
      (∀ t, PCRel m err At (r t) (C₁.pc t) (D.pc t)) ∧ k + sumTo r T ≤ (B + 2) * (k' + f) := by
  have main : ∀ {h t ch s' p' e k f} {C₁ : MConf S (TPC S L Ch R)}, t < T → P.mach.step t C₁.s (C₁.pc t) ch = some (s', p', e) →
      Program.ok okCall C₁.s (C₁.pc t) ch →
      (∃ (D : MConf S PC) (k' : Nat) (r : Nat → Nat), Counted m okm sw T ⟨s₀, fun _ => m.idle⟩ h D k' f ∧ D.s = C₁.s ∧
        (∀ t, PCRel m err At (r t) (C₁.pc t) (D.pc t)) ∧ k + sumTo r T ≤ (B + 2) * (k' + f)) →
      ∃ (D : MConf S PC) (k' : Nat) (r : Nat → Nat),
        Counted m okm sw T ⟨s₀, fun _ => m.idle⟩ (h ++ e.toList) D k' (f + if st (C₁.pc t) ch then 1 else 0) ∧ D.s = s' ∧
        (∀ u, PCRel m err At (r u) (upd C₁.pc t p' u) (D.pc u)) ∧
        k + 1 + sumTo r T ≤ (B + 2) * (k' + (f + if st (C₁.pc t) ch then 1 else 0)) := by
    rintro h t ch s' p' e k f C₁ ht hs hok ⟨D, k', r, h1, h2, h3, h4⟩
    obtain ⟨p₁, n', a, h5, h6, h7, -⟩ := hr.step hS (h2 ▸ hI _ _ h1.steps t) (h3 t) hs hok
    refine ⟨_, k' + a, upd r t n', h6.counted ht h2 rfl h1, rfl, fun u => ?_, ?_⟩
    · by_cases hu : u = t
      · subst hu; simpa using h5
      · simpa [upd_ne _ _ _ hu] using h3 u
    · have := sumTo_upd r t n' ht
      generalize (if st (C₁.pc t) ch then 1 else 0) = x at h7 ⊢
      rw [show k' + a + (f + x) = (k' + f) + (a + x) by omega, Nat.mul_add]
      omega
  induction hx with
  | refl =>
    refine ⟨_, 0, fun _ => 0, .refl, rfl, fun _ => rfl, ?_⟩
    simpa using sumTo_le (f := fun _ => 0) (c := 0) (fun _ => Nat.le_refl 0) T
  | step _ ht hs hok hsp ih => simpa [hsp] using main ht hs hok ih
  | fail _ ht hs hok hsp ih =>
    obtain ⟨D, k', r, h1, h2, h3, h4⟩ := main ht hs hok ih
    rw [hsp] at h1 h4
    exact ⟨D, k', r, h1, h2, h3, by simp at h4; omega⟩

theorem _root_.Verif.Counted.more {P : Type} {m : Mach S P Ch O R} {ok : S → P → Ch → Prop} {spur : P → Ch → Bool} {T T' : Nat}
    {C₀ C : MConf S P} {h : History O R} {k f : Nat} (hT : T ≤ T') (hx : Counted m ok spur T C₀ h C k f) : Counted m ok spur T' C₀ h C k f := by
  induction hx with
  | refl => exact .refl
  | step _ ht hs hok hsp ih => exact .step ih (by omega) hs hok hsp
  | fail _ ht hs hok hsp ih => exact .fail ih (by omega) hs hok hsp

theorem _root_.Verif.MSteps.threads {P : Type} {m : Mach S P Ch O R} {ok : S → P → Ch → Prop} (spur : P → Ch → Bool)
    {C₀ C : MConf S P} {h : History O R} (hx : MSteps m ok C₀ h C) : ∃ T k f, Counted m ok spur T C₀ h C k f := by
  induction hx with
  | refl => exact ⟨0, 0, 0, .refl⟩
  | @step h C t ch s' p' e _ hs hok ih =>
    obtain ⟨T, k, f, ih⟩ := ih
    have ih := ih.more (Nat.le_max_left T (t + 1))
    have ht : t < max T (t + 1) := by omega
    cases hsp : spur (C.pc t) ch with
    | true => exact ⟨_, k, f + 1, .fail ih ht hs hok hsp⟩
    | false => exact ⟨_, k + 1, f, .step ih ht hs hok hsp⟩

/-- Every execution of the program is one of the machine: same history, same shared state. -/
theorem Refines.steps (hr : Refines P m okCall okm sp err I At B) {s₀ : S}
    (hI : ∀ h D, MSteps m okm ⟨s₀, fun _ => m.idle⟩ h D → ∀ t, I t D.s (D.pc t)) {h C₁}
    (hx : MSteps P.mach (Program.ok okCall) ⟨s₀, fun _ => .idle⟩ h C₁) :
    ∃ D : MConf S PC, MSteps m okm ⟨s₀, fun _ => m.idle⟩ h D ∧ D.s = C₁.s ∧ ∀ t, ∃ n, PCRel m err At n (C₁.pc t) (D.pc t) := by
  obtain ⟨T, k, f, hx⟩ := hx.threads (spurious sp)
  obtain ⟨D, k', r, h1, h2, h3, -⟩ := hr.counted Failures.all hI hx
  exact ⟨D, h1.steps, h2, fun t => ⟨r t, h3 t⟩⟩

theorem Moves.steps {t s p h s' p' a b} (hm : Moves m okm sw t s p h s' p' a b) {C₀ h₀} {D : MConf S PC} (hs : D.s = s) (hp : D.pc t = p)
    (hx : MSteps m okm C₀ h₀ D) : MSteps m okm C₀ (h₀ ++ h) ⟨s', upd D.pc t p'⟩ := by
  obtain ⟨_, pc⟩ := D
  cases (show _ = s from hs)
  cases (show pc t = p from hp)
  induction hm with
  | stay => simpa [upd_eq_self] using hx
  | @step h s₁ p₁ a b ch s' p' e _ hok hs ih =>
    have hs : m.step t s₁ (upd pc t p₁ t) ch = some (s', p', e) := by rw [upd_self]; exact hs
    have hok : okm s₁ (upd pc t p₁ t) ch := by rw [upd_self]; exact hok
    simpa [upd_upd] using MSteps.step ih hs hok

/-- The same from any two related configurations on. -/
theorem Refines.extend (hr : Refines P m okCall okm sp err I At B) {D₀ : MConf S PC} {C₀ : MConf S (TPC S L Ch R)}
    (hI : ∀ h D, MSteps m okm D₀ h D → ∀ t, I t D.s (D.pc t)) (hs : D₀.s = C₀.s)
    (hp : ∀ u, ∃ n, PCRel m err At n (C₀.pc u) (D₀.pc u)) {h C₁} (hx : MSteps P.mach (Program.ok okCall) C₀ h C₁) :
    ∃ D₁ : MConf S PC, MSteps m okm D₀ h D₁ ∧ D₁.s = C₁.s ∧ ∀ u, ∃ n, PCRel m err At n (C₁.pc u) (D₁.pc u) := by
  induction hx with
  | refl => exact ⟨_, .refl _, hs, hp⟩
  | @step h C₂ t ch s' p' e _ hst hok ih =>
    obtain ⟨D, h1, h2, h3⟩ := ih
    obtain ⟨n, h4⟩ := h3 t
    obtain ⟨p₁, n', a, h5, h6, -⟩ := hr.step Failures.all (h2 ▸ hI _ _ h1 t) h4 hst hok
    refine ⟨_, h6.steps h2 rfl h1, rfl, fun u => ?_⟩
    by_cases hu : u = t
    · subst hu; exact ⟨n', by simpa using h5⟩
    · simpa [upd_ne _ _ _ hu] using h3 u

/-! ### Steps of one thread -/

/-- Every step of thread `t` counts one, except those outside the calls. -/
def stepsOfThread (t : Nat) (t' : Nat) : TChoice Ch O → Nat
  | .env _ => 0
  | _ => if t' = t then 1 else 0

theorem Moves.count {t s p h s' p' a b} (hm : Moves m okm (fun _ => sp) t s p h s' p' a b) {w : Nat → Ch → Nat} {C₀ h₀ n} {D : MConf S PC} (hs : D.s = s)
    (hp : D.pc t = p) (hx : MSteps (m.count w) (fun s => okm s.1) C₀ h₀ ⟨(D.s, n), D.pc⟩) :
    ∃ n', MSteps (m.count w) (fun s => okm s.1) C₀ (h₀ ++ h) ⟨(s', n'), upd D.pc t p'⟩ ∧ n ≤ n' ∧ ((∀ ch, sp ch = false → 1 ≤ w t ch) → n + a ≤ n') := by
  obtain ⟨_, pc⟩ := D
  cases (show _ = s from hs)
  cases (show pc t = p from hp)
  induction hm with
  | stay => exact ⟨n, by simpa [upd_eq_self] using hx, Nat.le_refl _, fun _ => Nat.le_refl _⟩
  | @step h s₁ p₁ a b ch s' p' e _ hok hs ih =>
    obtain ⟨n', h1, h2, h3⟩ := ih
    have h4 : (m.count w).step t (s₁, n') (upd pc t p₁ t) ch = some ((s', n' + w t ch), p', e) := by
      rw [upd_self]; simp [Mach.count, hs]
    have h5 := MSteps.step h1 h4 (by show okm s₁ (upd pc t p₁ t) ch; rw [upd_self]; exact hok)
    refine ⟨n' + w t ch, by simpa [upd_upd] using h5, by omega, fun hw => ?_⟩
    have := h3 hw
    cases hc : sp ch with
    | true => simp; omega
    | false => have := hw ch hc; simp; omega

/-- Every execution of the program is one of the machine, and the numbers of steps of one thread differ by a constant factor. -/
theorem Refines.thread_steps (hr : Refines P m okCall okm sp err I At B) {D₀ : MConf S PC} {C₀ : MConf S (TPC S L Ch R)} {t : Nat}
    {w : Nat → Ch → Nat}
    (hw : ∀ ch, sp ch = false → 1 ≤ w t ch)
    (hacc : ∀ s l a k p ch z, At l (.stm (.acc a) :: k) p → a.run t s l ch = some z → sp ch = false)
    (hI : ∀ h D, MSteps m okm D₀ h D → ∀ t, I t D.s (D.pc t)) (hs : D₀.s = C₀.s) (hid : D₀.pc t = m.idle) (hid' : C₀.pc t = .idle)
    (hp : ∀ u, ∃ n, PCRel m err At n (C₀.pc u) (D₀.pc u)) {h} {C₁ : MConf (S × Nat) (TPC S L Ch R)}
    (hx : MSteps (P.mach.count (stepsOfThread t)) (fun s => Program.ok okCall s.1) ⟨(C₀.s, 0), C₀.pc⟩ h C₁) :
    ∃ D₁ : MConf (S × Nat) PC, MSteps (m.count w) (fun s => okm s.1) ⟨(D₀.s, 0), D₀.pc⟩ h D₁ ∧ D₁.s.1 = C₁.s.1 ∧
      (∀ u, ∃ n, PCRel m err At n (C₁.pc u) (D₁.pc u)) ∧ C₁.s.2 ≤ (B + 2) * D₁.s.2 := by
  suffices hh : ∃ D₁ : MConf (S × Nat) PC, MSteps (m.count w) (fun s => okm s.1) ⟨(D₀.s, 0), D₀.pc⟩ h D₁ ∧ D₁.s.1 = C₁.s.1 ∧
      (∀ u, ∃ n, PCRel m err At n (C₁.pc u) (D₁.pc u)) ∧ ∃ n, PCRel m err At n (C₁.pc t) (D₁.pc t) ∧ C₁.s.2 + n ≤ (B + 2) * D₁.s.2 by
    obtain ⟨D₁, h1, h2, h3, n, -, h4⟩ := hh
    exact ⟨D₁, h1, h2, h3, by omega⟩
  generalize hC : (⟨(C₀.s, 0), C₀.pc⟩ : MConf (S × Nat) (TPC S L Ch R)) = C at hx
  induction hx with
  | refl =>
    subst hC
    refine ⟨_, .refl _, hs, hp, 0, ?_, Nat.zero_le _⟩
    show PCRel m err At 0 (C₀.pc t) (D₀.pc t)
    rw [hid, hid']; rfl
  | @step h C₂ u ch s' p' e _ hst hok ih =>
    obtain ⟨⟨⟨sd, nd⟩, pd⟩, h1, h2, h3, n, h4, h5⟩ := ih
    obtain ⟨h6, h7⟩ := Mach.count_step hst
    cases (show sd = C₂.s.1 from h2)
    have hi := hI _ _ h1.uncount u
    by_cases hu : u = t
    · subst hu
      obtain ⟨p₁, n', a, g1, g2, g3, g4⟩ := hr.step Failures.all hi h4 h6 hok
      obtain ⟨nd', g5, g6, g7⟩ := Moves.count (D := ⟨C₂.s.1, pd⟩) g2 (w := w) rfl rfl h1
      refine ⟨_, g5, rfl, fun v => ?_, n', by simpa using g1, ?_⟩
      · by_cases hv : v = u
        · subst hv; exact ⟨n', by simpa using g1⟩
        · simpa [upd_ne _ _ _ hv] using h3 v
      · show s'.2 + n' ≤ (B + 2) * nd'
        have g8 := g7 hw
        have hm : (B + 2) * (nd + a) ≤ (B + 2) * nd' := Nat.mul_le_mul_left _ g8
        rw [Nat.mul_add] at hm
        have h5 : C₂.s.2 + n ≤ (B + 2) * nd := h5
        have key : stepsOfThread u u ch + n' ≤ n + (B + 2) * a := by
          cases ch with
          | env x => rw [g4 x rfl]; simp [stepsOfThread]
          | act x =>
            have hsp : sp x = false := by
              generalize hq : C₂.pc u = q at h6 h4
              match q with
              | .run l (.stm (.acc ac) :: k) =>
                obtain ⟨_, -, hl⟩ := h4
                have hat := Leads.stuck hl rfl
                simp only [Program.mach] at h6
                cases hz : ac.run u C₂.s.1 l x with
                | none => simp [hz] at h6
                | some z => exact hacc _ _ _ _ _ _ _ hat hz
              | .idle | .ret _ | .err | .run _ [] | .run _ (.loop _ :: _) | .run _ (.fn :: _) | .run _ (.handler _ :: _) =>
                simp [Program.mach] at h6
              | .run _ (.stm (.set _) :: _) | .run _ (.stm (.seq _ _) :: _) | .run _ (.stm (.ite _ _ _) :: _)
              | .run _ (.stm (.forever _) :: _) | .run _ (.stm .brk :: _) | .run _ (.stm .cont :: _) | .run _ (.stm .ret :: _)
              | .run _ (.stm (.fn _) :: _) | .run _ (.stm (.tryCatch _ _) :: _) | .run _ (.stm .rethrow :: _) =>
                simp [Program.mach] at h6
            simp only [spurious, hsp] at g3
            simp [stepsOfThread]; simp at g3; omega
          | call | tau => simp [spurious] at g3; simp [stepsOfThread]; omega
        omega
    · obtain ⟨n₀, g0⟩ := h3 u
      obtain ⟨p₁, n', a, g1, g2, g3, g4⟩ := hr.step Failures.all hi g0 h6 hok
      obtain ⟨nd', g5, g6, g7⟩ := Moves.count (D := ⟨C₂.s.1, pd⟩) g2 (w := w) rfl rfl h1
      refine ⟨_, g5, rfl, fun v => ?_, n, by simpa [upd_ne _ _ _ (Ne.symm hu)] using h4, ?_⟩
      · by_cases hv : v = u
        · subst hv; exact ⟨n', by simpa using g1⟩
        · simpa [upd_ne _ _ _ hv] using h3 v
      · show s'.2 + n ≤ (B + 2) * nd'
        have h5 : C₂.s.2 + n ≤ (B + 2) * nd := h5
        have : (B + 2) * nd ≤ (B + 2) * nd' := Nat.mul_le_mul_left _ g6
        have : stepsOfThread t u ch = 0 := by cases ch <;> simp [stepsOfThread, hu]
        omega

/-! ### The converse -/

/-- Whatever the machine does, the text can do. -/
structure Complete (P : Program S L Ch O R) {PC : Type} (m : Mach S PC Ch O R) (okCall : S → O → Prop) (okm : S → PC → Ch → Prop)
    (sp : Ch → Bool) (err : PC) (I : Nat → S → PC → Prop) (At : L → Rest S L Ch → PC → Prop) (B : Nat) : Prop where
  /-- the beginning of a call -/
  call : ∀ t s ch s' p e, P.env t s ch = none → okm s m.idle ch → m.step t s m.idle ch = some (s', p, e) →
    ∃ o l a, P.body t o = some (l, a) ∧ okCall s o ∧ s' = s ∧ e = some (.inv t o) ∧ Soon m okm sp (Leads B At l [.stm a]) p
  /-- an access -/
  access : ∀ t s l a k p ch y, I t s p → At l (.stm (.acc a) :: k) p → P.env t s ch = none → okm s p ch → m.step t s p ch = some y →
    a.ok s l ch = true ∧ ∃ z, a.run t s l ch = some z
  /-- the response -/
  res : ∀ t s r ch y, P.env t s ch = none → m.step t s (m.ret r) ch = some y → y = (s, m.idle, some (.res t r))
  /-- no step after undefined behaviour -/
  err : ∀ t s ch, P.env t s ch = none → m.step t s err ch = none

/-- Related program counters. -/
def Follows (m : Mach S PC Ch O R) (okm : S → PC → Ch → Prop) (sp : Ch → Bool) (err : PC) (At : L → Rest S L Ch → PC → Prop) (B : Nat) :
    TPC S L Ch R → PC → Prop
  | .idle, p => p = m.idle
  | .run l k, p => Soon m okm sp (Leads B At l k) p
  | .ret _, _ => False
  | .err, p => p = err

theorem Reach.steps {n : Nat} {l l' : L} {k k' : Rest S L Ch} (hr : Reach n l k l' k') {C₀ : MConf S (TPC S L Ch R)} {t : Nat} {h s} :
    ∀ {pc : Nat → TPC S L Ch R}, MSteps P.mach (Program.ok okCall) C₀ h ⟨s, pc⟩ → pc t = .run l k →
    MSteps P.mach (Program.ok okCall) C₀ h ⟨s, upd pc t (.run l' k')⟩ := by
  induction hr with
  | refl => intro pc hx hp; rwa [← hp, upd_eq_self]
  | @step n l k l₁ k₁ l₂ k₂ hc _ ih =>
    intro pc hx hp
    have h1 : P.mach.step t s (pc t) .tau = some (s, .run l₁ k₁, none) := by
      rw [hp]
      cases k with
      | nil => simp [Text.ctl] at hc
      | cons => simp [Program.mach, hc]
    have h2 := MSteps.step hx h1 (by show Program.ok okCall s (pc t) .tau; rw [hp]; unfold Program.ok; split <;> simp_all)
    simp only [Option.toList, List.append_nil] at h2
    have h3 := ih h2 (by simp)
    rwa [upd_upd] at h3

/-- Every execution of the machine is one of the program: same history, same shared state. -/
theorem Refines.complete (hr : Refines P m okCall okm sp err I At B) (hc : Complete P m okCall okm sp err I At B) {s₀ : S}
    (hI : ∀ h D, MSteps m okm ⟨s₀, fun _ => m.idle⟩ h D → ∀ t, I t D.s (D.pc t)) {h D}
    (hx : MSteps m okm ⟨s₀, fun _ => m.idle⟩ h D) :
    ∃ C : MConf S (TPC S L Ch R), MSteps P.mach (Program.ok okCall) ⟨s₀, fun _ => .idle⟩ h C ∧ C.s = D.s ∧
      ∀ t, Follows m okm sp err At B (C.pc t) (D.pc t) := by
  induction hx with
  | refl => exact ⟨_, .refl _, rfl, fun _ => rfl⟩
  | @step h D t ch s' p' e hx hs hok ih =>
    obtain ⟨⟨s, pc⟩, h1, rfl, h3⟩ := ih
    have hI' := hI _ _ hx t
    -- it suffices to find out where thread `t` is
    suffices hs : ∃ q, MSteps P.mach (Program.ok okCall) ⟨s₀, fun _ => .idle⟩ (h ++ e.toList) ⟨s', upd pc t q⟩ ∧
        Follows m okm sp err At B q p' by
      obtain ⟨q, h4, h5⟩ := hs
      refine ⟨_, h4, rfl, fun u => ?_⟩
      by_cases hu : u = t
      · subst hu; simpa using h5
      · simpa [upd_ne _ _ _ hu] using h3 u
    have h4 : Follows m okm sp err At B (pc t) (D.pc t) := h3 t
    generalize hq : pc t = q at h4
    generalize D.pc t = p at h4 hs hok hI'
    cases hv : P.env t D.s ch with
    | some s₂ =>
      have h5 := (hr.env t D.s p ch s₂ hv).2
      rw [hs] at h5
      cases h5
      refine ⟨q, ?_, h4⟩
      have := MSteps.step (t := t) (ch := .env ch) h1 (s' := s') (p' := q) (e := none)
        (by
          show P.mach.step t D.s (pc t) (.env ch) = _
          rw [hq]
          cases q with
          | run l k => cases k <;> simp [Program.mach, hv]
          | _ => simp [Program.mach, hv])
        (by unfold Program.ok; split <;> simp_all)
      simpa using this
    | none =>
    cases q with
    | idle =>
      cases (show p = m.idle from h4)
      obtain ⟨o, l, a, h5, h6, rfl, rfl, h7⟩ := hc.call _ _ _ _ _ _ hv hok hs
      exact ⟨.run l [.stm a], .step (ch := .call o) h1 (by simp [hq, Program.mach, h5])
        (by show Program.ok okCall _ (pc t) (.call o); rw [hq]; exact h6), h7⟩
    | ret r => exact h4.elim
    | err =>
      cases (show p = err from h4)
      rw [hc.err _ _ _ hv] at hs
      cases hs
    | run l k =>
      rcases h4 with ⟨n, l', k', -, h5, h6⟩ | ⟨p₁, h5, h6⟩
      · have h7 := h5.steps h1 hq
        have h8 := hr.head _ _ _ h6
        match k', h8 with
        | [], _ =>
          cases hr.fin _ _ h6
          cases hc.res _ _ _ _ _ hv hs
          have h9 := MSteps.step (t := t) (ch := .tau) h7 (s' := D.s) (p' := .ret (P.result l')) (e := none) (by simp [Program.mach]) (by simp [Program.ok])
          have h10 := MSteps.step (t := t) (ch := .tau) h9 (s' := D.s) (p' := .idle) (e := some (.res t (P.result l'))) (by simp [Program.mach])
            (by simp [Program.ok])
          exact ⟨.idle, by simpa [upd_upd] using h10, rfl⟩
        | .stm (.acc a) :: k', _ =>
          obtain ⟨h9, ⟨s₂, l₂, f⟩, h10⟩ := hc.access _ _ _ _ _ _ _ _ hI' h6 hv hok hs
          obtain ⟨p₂, h11, h12, h13⟩ := hr.access t _ _ _ _ _ _ _ _ _ hI' h6 h9 h10
          cases Option.some.inj (h12.symm.trans hs)
          have h14 : P.mach.step t D.s (upd pc t (.run l' (.stm (.acc a) :: k')) t) (.act ch) =
              some (s', (match f with | .next => .run l₂ k' | .throws => .run l₂ (toHandler k') | .ub => .err), none) := by
            simp only [Program.mach, upd_self, h10]
            cases f <;> rfl
          have h15 := MSteps.step h7 h14 (by show Program.ok okCall _ (upd pc t _ t) (.act ch); rw [upd_self]; exact h9)
          rw [upd_upd] at h15
          refine ⟨_, h15, ?_⟩
          cases f <;> exact h13
      · cases (h5 t D.s).2 _ _ hs
        refine ⟨.run l k, ?_, .inl h6⟩
        rw [← hq, upd_eq_self]
        simpa using h1

end Verif.Text
