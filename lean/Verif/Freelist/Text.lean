import Verif.TextPool
import Verif.Freelist.Spec

/-!
# The freelists on their own (C67)

`construct` and `destruct` of `freelist_stack` (freelist.hpp:36-258) and `fixed_size_freelist` (freelist.hpp:397-614) as program text, called by any
number of threads, without a container around them. `allocate` and `deallocate` are the texts of `TextPool`. `smach` is the machine that has one
program counter for each place in these texts.
-/

namespace Verif.Freelist
open Lin Text

variable {α : Type} (R : Rep)

/-- Local variables and parameters. -/
structure Loc (K : Words) (α : Type) where
  fl : PoolVars K
  /-- argument of the constructor of the object -/
  arg : Option α
  /-- it throws -/
  thr : Bool
  result : Ret

abbrev LStm (α : Type) := PStm R α (SMem R.K α) (Loc R.K α) (Op α)
abbrev LAcc (α : Type) := Access (SMem R.K α) (Loc R.K α) (SChoice R.K (Op α) α)
abbrev LRest (α : Type) := PRest R α (SMem R.K α) (Loc R.K α) (Op α)

/-- The freelist itself. -/
def port (α : Type) : Port R α (SMem R.K α) (Loc R.K α) where
  mem := id
  setMem _ m := m
  fl := Loc.fl
  setFl l x := { l with fl := x }
  mem_set _ _ := rfl
  fl_set _ _ := rfl
  set_set _ _ _ := rfl
  set_fl _ := rfl

variable {R}

/-- `new ( node ) T( arg )` (freelist.hpp:82, 91, 100, 446, 458, 470). An object that exists already in the node: undefined behaviour. -/
def ctor : LAcc R α where
  run _ s l ch :=
    match l.fl.node, l.arg, ch with
    | some n, some v, .go =>
      if (s.data n).isSome then some (s, l, .ub)
      else if l.thr then some (s, l, .throws)
      else some (s.setData n (some v), l, .next)
    | some _, some _, _ => none
    | _, _, _ => some (s, l, .ub)

/-- `construct< true, Bounded >( arg )` (freelist.hpp:77-102, 438-472). -/
def construct (b : Bool) : LStm R α :=
  .fn ((port R α).allocate b) ;;
  .ite (fun l => l.fl.node.isSome) (.acc ctor) .skip ;;
  .set (fun l => { l with result := .node l.fl.node }) ;;
  .ret

/-- `destruct< true >( n )` (freelist.hpp:104-117, 474-489). -/
def destruct : LStm R α :=
  .fn (port R α).destruct ;;
  .set (fun l => { l with result := .done }) ;;
  .ret

/-- A call: an exception is passed on. -/
def call (a : LStm R α) : LStm R α := .tryCatch (.fn a) (.set fun l => { l with result := .threw })

/-- The local variables before a call; words and handles: anything. -/
def Loc.init (w : R.K.W) : Loc R.K α := ⟨⟨⟨w, 0⟩, R.K.ptr w, w, false, none, none⟩, none, false, .threw⟩

/-- The member functions. -/
def program (R : Rep) (α : Type) : Program (SMem R.K α) (Loc R.K α) (SChoice R.K (Op α) α) (Op α) Ret where
  body _
    | .construct b v thr => some ({ Loc.init (α := α) R.zero with arg := some v, thr := thr }, call (construct b))
    | .destruct n => some ({ Loc.init (α := α) R.zero with fl := { (Loc.init (α := α) R.zero).fl with n := some n } }, call destruct)
  result l := l.result

abbrev TConf (R : Rep) (α : Type) := MConf (SMem R.K α) (TPC (SMem R.K α) (Loc R.K α) (SChoice R.K (Op α) α) Ret)

/-- Executions of a freelist constructed with `n` nodes, in which no tag wraps completely between a load and the corresponding compare-exchange. -/
abbrev Exec (R : Rep) (n : Nat) (h : History (Op α) Ret) (C : TConf R α) : Prop :=
  MSteps (program R α).mach (Program.ok fun _ _ => True) ⟨SMem.initial R n, fun _ => .idle⟩ h C

/-! ### The machine -/

/-- Places in the text. -/
inductive PC (K : Words) (α : Type) where
  | idle
  | alloc (b : Bool) (v : α) (thr : Bool) (a : SAPC K)
  | constr (v : α) (thr : Bool) (n : Nat)
  | destroy (n : Nat)
  | free (n : Nat) (d : SDPC K)
  | ret (r : Ret)
  | err

def step (R : Rep) (t : Nat) (s : SMem R.K α) :
    PC R.K α → SChoice R.K (Op α) α → Option (SMem R.K α × PC R.K α × Option (Event (Op α) Ret))
  | .idle, .call (.construct b v thr) => some (s, .alloc b v thr .load, some (.inv t (.construct b v thr)))
  | .idle, .call (.destruct n) => some (s, .destroy n, some (.inv t (.destruct n)))
  | .alloc b v thr a, ch =>
    match saStep R b s a ch with
    | none => none
    | some (m, .more a') => some (m, .alloc b v thr a', none)
    | some (m, .got n) => some (m, .constr v thr n, none)
    | some (m, .null) => some (m, .ret (.node none), none)
    | some (m, .badAlloc) => some (m, .ret .threw, none)
  | .constr v thr n, .go =>
    if (s.data n).isSome then some (s, .err, none)
    else if thr then some (s, .ret .threw, none)
    else some (s.setData n (some v), .ret (.node (some n)), none)
  | .destroy n, .go => if (s.data n).isSome then some (s.setData n none, .free n .load, none) else some (s, .err, none)
  | .free n d, ch =>
    match sdStep R s n d ch with
    | none => none
    | some (m, some d') => some (m, .free n d', none)
    | some (m, none) => some (m, .ret .done, none)
  | .ret r, .go => some (s, .idle, some (.res t r))
  | _, _ => none

def smach (α : Type) (R : Rep) : Mach (SMem R.K α) (PC R.K α) (SChoice R.K (Op α) α) (Op α) Ret := ⟨step R, .idle, .ret⟩

/-- No complete wrap of the tag. -/
def okFresh (R : Rep) (s : SMem R.K α) : PC R.K α → SChoice R.K (Op α) α → Prop
  | .alloc _ _ _ a, _ => saFresh R s a
  | _, _ => True

/-! ### The text refines the machine -/

/-- What follows `allocate`. -/
def afterAlloc : LRest R α :=
  [.stm (.ite (fun l => l.fl.node.isSome) (.acc ctor) .skip ;; .set (fun l => { l with result := .node l.fl.node }) ;; .ret),
   .fn, .handler (.set fun l => { l with result := .threw })]

/-- What follows the constructor of the object. -/
def afterCtor : LRest R α :=
  [.stm (.set (fun l => { l with result := .node l.fl.node }) ;; .ret), .fn, .handler (.set fun l => { l with result := .threw })]

/-- What follows `deallocate`. -/
def afterFree : LRest R α :=
  [.fn, .stm (.set (fun l => { l with result := .done }) ;; .ret), .fn, .handler (.set fun l => { l with result := .threw })]

/-- The places. -/
inductive At : Loc R.K α → LRest R α → PC R.K α → Prop where
  | alloc {l k b v thr a} : l.arg = some v → l.thr = thr → AllocAt (port R α) b afterAlloc l k a → At l k (.alloc b v thr a)
  | constr {l v thr n} : l.arg = some v → l.thr = thr → l.fl.node = some n → At l (.stm (.acc ctor) :: afterCtor) (.constr v thr n)
  | destroy {l n} : l.fl.n = some n →
      At l (.stm (.acc (port R α).dtor) :: .stm (.fn (port R α).deallocate) :: afterFree) (.destroy n)
  | free {l k n d} : DeallocAt (port R α) n afterFree l k d → At l k (.free n d)
  | fin {l r} : l.result = r → At l [] (.ret r)

theorem null_silent {b : Bool} {v : α} {thr : Bool} {o : SSnap R.K} (h1 : R.K.node (R.K.ptr o.v) = none) (h2 : (R.fixed || b) = true) :
    Silent (smach α R) (okFresh R) isSpur (.alloc b v thr (.test o)) (.ret (.node none)) := by
  intro t s
  refine ⟨⟨.go, rfl, trivial, by simp [smach, step, saStep, h1, h2]⟩, fun ch y hy => ?_⟩
  cases ch <;> simp [smach, step, saStep, h1, h2] at hy
  exact hy.symm

/-- The text refines the machine. -/
theorem refines : Refines (program R α) (smach α R) (fun _ _ => True) (okFresh R) isSpur .err (fun _ _ _ => True) At 40 where
  call t s o l a hb _ := by
    cases o with
    | construct b v thr =>
      simp [program] at hb
      obtain ⟨rfl, rfl⟩ := hb
      refine ⟨.call (.construct b v thr), _, rfl, trivial, rfl, .inl ?_⟩
      leads
      exact .alloc rfl rfl .load
    | destruct n =>
      simp [program] at hb
      obtain ⟨rfl, rfl⟩ := hb
      refine ⟨.call (.destruct n), _, rfl, trivial, rfl, .inl ?_⟩
      leads
      exact .destroy rfl
  head l k p h := by
    cases h with
    | alloc _ _ h => exact h.head
    | free h => exact h.head
    | constr => rfl
    | destroy => rfl
    | fin => rfl
  access t s l a k p ch s' l' f _ hat hok hr := by
    generalize hk : Item.stm (.acc a) :: k = K at hat
    cases hat with
    | @alloc _ b v thr a' hv ht ha =>
      subst hk
      obtain ⟨m, r, h1, h2, rfl, ⟨x, rfl⟩, h5, h6⟩ := alloc_access ha hr
      have h2 := h2 hok
      cases r with
      | more a₁ =>
        obtain ⟨rfl, i, l₁, k₁, hi, ⟨y, rfl⟩, h9, h10⟩ := h6
        refine ⟨.alloc b v thr a₁, h2, by simp only [smach, step]; erw [h1], ?_⟩
        rcases h10 with h10 | ⟨rfl, h11, o, rfl, h12, h13⟩
        · exact .inl (Leads.reach h9 (Leads.here (n := 0) (.alloc hv ht h10)) (by omega))
        · refine .inr ⟨_, null_silent h12 h13, Leads.reach h9 (b := 20) ?_ (by omega)⟩
          have h11 : y.node = none := h11
          change Leads 20 At { l with fl := y } _ _
          leads
          exact .fin (by simp [h11])
      | got n =>
        obtain ⟨rfl, i, l₁, hi, ⟨y, rfl⟩, h9, h10⟩ := h6
        refine ⟨.constr v thr n, h2, by simp only [smach, step]; erw [h1], .inl (Leads.reach h9 (b := 20) ?_ (by omega))⟩
        have h10 : y.node = some n := h10
        change Leads 20 At { l with fl := y } _ _
        leads
        exact .constr hv ht h10
      | null => exact h6.elim
      | badAlloc =>
        obtain ⟨rfl, h8⟩ := h6
        refine ⟨.ret .threw, h2, by simp only [smach, step]; erw [h1], .inl ?_⟩
        simp only [Flow.rest, h8]
        leads
        exact .fin rfl
    | @constr v thr n hv ht hn =>
      cases hk
      simp only [ctor, hn, hv] at hr
      cases ch <;> simp at hr
      by_cases hd : (s.data n).isSome
      · simp [hd] at hr
        obtain ⟨rfl, rfl, rfl⟩ := hr
        exact ⟨.err, trivial, by simp [smach, step, hd], rfl⟩
      · by_cases hth : l.thr = true
        · simp [hd, hth] at hr
          obtain ⟨rfl, rfl, rfl⟩ := hr
          refine ⟨.ret .threw, trivial, by simp [smach, step, hd, ← ht, hth], .inl ?_⟩
          simp only [Flow.rest]
          leads
          exact .fin rfl
        · simp [hd, hth] at hr
          obtain ⟨rfl, rfl, rfl⟩ := hr
          refine ⟨.ret (.node (some n)), trivial, by simp [smach, step, hd, ← ht, hth], .inl ?_⟩
          simp only [Flow.rest, afterCtor]
          leads
          exact .fin (by simp [hn])
    | @destroy n hn =>
      cases hk
      simp only [Port.dtor, Port.acc, port, hn, id] at hr
      cases ch <;> simp at hr
      by_cases hd : (s.data n).isSome
      · simp [hd] at hr
        obtain ⟨⟨rfl, rfl⟩, rfl⟩ := hr
        refine ⟨.free n .load, trivial, by simp [smach, step, hd], .inl ?_⟩
        simp only [Flow.rest]
        leads
        exact .free (.load hn)
      · simp [hd] at hr
        obtain ⟨⟨rfl, rfl⟩, rfl⟩ := hr
        exact ⟨.err, trivial, by simp [smach, step, hd], rfl⟩
    | @free _ n d hd =>
      subst hk
      obtain ⟨m, r, h1, rfl, ⟨x, rfl⟩, h5, rfl, h6⟩ := dealloc_access hd hr
      cases r with
      | some d' =>
        obtain ⟨i, l₁, k₁, hi, -, h9, h10⟩ := h6
        exact ⟨.free n d', trivial, by simp only [smach, step]; erw [h1],
          .inl (Leads.reach h9 (Leads.here (n := 0) (.free h10)) (by omega))⟩
      | none =>
        refine ⟨.ret .done, trivial, by simp only [smach, step]; erw [h1], .inl (Leads.reach h6 (b := 20) ?_)⟩
        simp only [afterFree]
        leads
        exact .fin rfl
    | fin => simp at hk
  fin l p h := by
    generalize hk : ([] : LRest R α) = K at h
    cases h with
    | fin hr => rw [← hr]; rfl
    | alloc _ _ h => exact (h.ne hk.symm).elim
    | free h => exact (h.ne hk.symm).elim
    | _ => cases hk
  res t s r := ⟨.go, rfl, trivial, rfl⟩
  env t s p ch s' h := by simp [program] at h

end Verif.Freelist
