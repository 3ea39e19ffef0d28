import Verif.Freelist.Progress
import Verif.TextUnsync

/-!
# The functions of the freelists that are not thread-safe (C73)

`construct< false, Bounded >` and `destruct< false >` of `freelist_stack` (freelist.hpp:36-258) and `fixed_size_freelist` (freelist.hpp:397-614) as
program text, without a container around them: test/freelist_test.cpp:52-118 calls them. `allocate_impl_unsafe` and `deallocate_impl_unsafe` are the
texts of `TextUnsync`.
-/

namespace Verif.Freelist
open Lin Text

variable {α : Type} {R : Rep}

/-- `construct< false, Bounded >( arg )` (freelist.hpp:77-102, 438-472). -/
def constructU (b : Bool) : LStm R α :=
  .fn ((port R α).allocateU b) ;;
  .ite (fun l => l.fl.node.isSome) (.acc ctor) .skip ;;
  .set (fun l => { l with result := .node l.fl.node }) ;;
  .ret

/-- `destruct< false >( n )` (freelist.hpp:104-117, 474-489). -/
def destructU : LStm R α :=
  .fn (port R α).destructU ;;
  .set (fun l => { l with result := .done }) ;;
  .ret

/-- The member functions, not thread-safe. -/
def unsyncProgram (R : Rep) (α : Type) : Program (SMem R.K α) (Loc R.K α) (SChoice R.K (Op α) α) (Op α) Ret where
  body _
    | .construct b v thr => some ({ Loc.init (α := α) R.zero with arg := some v, thr := thr }, call (constructU b))
    | .destruct n => some ({ Loc.init (α := α) R.zero with fl := { (Loc.init (α := α) R.zero).fl with n := some n } }, call destructU)
  result l := l.result

/-- Program counters of the program text. -/
abbrev TextPC (R : Rep) (α : Type) := TPC (SMem R.K α) (Loc R.K α) (SChoice R.K (Op α) α) Ret

/-- Thread `t` executes these functions, alone, from shared state `s` and place `q`, in `k` steps. -/
abbrev UnsyncRun (R : Rep) (t k : Nat) (s : SMem R.K α) (q : TextPC R α) (h : History (Op α) Ret) (s' : SMem R.K α) (q' : TextPC R α) : Prop :=
  Alone (unsyncProgram R α).mach (Program.ok fun _ _ => True) t k s q h s' q'

/-- Executions of a freelist constructed with `n` nodes, in which the thread-safe functions are called by any number of threads, and, while no call
is in progress, the others by one thread. -/
inductive MixedExec (R : Rep) (n : Nat) : History (Op α) Ret → TConf R α → Prop where
  | start : MixedExec R n [] ⟨SMem.initial R n, fun _ => .idle⟩
  | step {h C t ch s' q' e} : MixedExec R n h C → (program R α).mach.step t C.s (C.pc t) ch = some (s', q', e) →
      Program.ok (fun _ _ => True) C.s (C.pc t) ch → MixedExec R n (h ++ e.toList) ⟨s', upd C.pc t q'⟩
  | unsync {h C t k h' s'} : MixedExec R n h C → (∀ u, C.pc u = .idle) → UnsyncRun R t k C.s .idle h' s' .idle →
      MixedExec R n (h ++ h') ⟨s', C.pc⟩

/-! ### The text refines the machine of the thread-safe functions -/

/-- The copies of `pool_` are up to date. -/
def NowU (R : Rep) (s : SMem R.K α) : PC R.K α → Prop
  | .alloc _ _ _ a => aNow s a
  | .free _ d => dNow s d
  | _ => True

def okU (R : Rep) (s : SMem R.K α) (p : PC R.K α) (ch : SChoice R.K (Op α) α) : Prop := okFresh R s p ch ∧ isSpur ch = false

/-- A thread that is alone keeps its copies up to date. -/
theorem NowU.step {t : Nat} {s s' : SMem R.K α} {p p' ch e} (h : NowU R s p) (hs : step R t s p ch = some (s', p', e)) : NowU R s' p' := by
  cases p with
  | alloc b v thr a =>
    simp only [Freelist.step] at hs
    cases hx : saStep R b s a ch with
    | none => rw [hx] at hs; cases hs
    | some x =>
      rw [hx] at hs
      obtain ⟨m, r⟩ := x
      cases r <;> simp at hs <;> obtain ⟨rfl, rfl, rfl⟩ := hs
      · exact aNow.step (show aNow s a from h) hx
      all_goals trivial
  | free n d =>
    simp only [Freelist.step] at hs
    cases hx : sdStep R s n d ch with
    | none => rw [hx] at hs; cases hs
    | some x =>
      rw [hx] at hs
      obtain ⟨m, r⟩ := x
      cases r <;> simp at hs <;> obtain ⟨rfl, rfl, rfl⟩ := hs
      · trivial
      · exact dNow.step (show dNow s d from h) hx
  | idle =>
    cases ch with
    | call o => cases o <;> simp [Freelist.step] at hs <;> obtain ⟨rfl, rfl, rfl⟩ := hs <;> trivial
    | _ => simp [Freelist.step] at hs
  | _ =>
    cases ch <;> simp only [Freelist.step] at hs
    all_goals try cases hs
    all_goals repeat' split at hs
    all_goals try cases hs
    all_goals trivial

theorem NowU.alone {t k : Nat} {s s' : SMem R.K α} {p p' h} (h0 : NowU R s p) (hx : Alone (smach α R) (okU R) t k s p h s' p') : NowU R s' p' := by
  induction hx with
  | nil => exact h0
  | cons hs _ _ ih => exact ih (h0.step hs)

/-- The places. -/
inductive AtU : Loc R.K α → LRest R α → PC R.K α → Prop where
  | alloc {l k b v thr a} : l.arg = some v → l.thr = thr → AllocUAt (port R α) b afterAlloc l k a → AtU l k (.alloc b v thr a)
  | constr {l v thr n} : l.arg = some v → l.thr = thr → l.fl.node = some n → AtU l (.stm (.acc ctor) :: afterCtor) (.constr v thr n)
  | destroy {l n} : l.fl.n = some n →
      AtU l (.stm (.acc (port R α).dtor) :: .stm (.fn (port R α).deallocateU) :: afterFree) (.destroy n)
  | free {l k n d} : DeallocUAt (port R α) n afterFree l k d → AtU l k (.free n d)
  | fin {l r} : l.result = r → AtU l [] (.ret r)

theorem null_silentU {b : Bool} {v : α} {thr : Bool} {o : SSnap R.K} (h1 : R.K.node (R.K.ptr o.v) = none) (h2 : (R.fixed || b) = true) :
    Silent (smach α R) (okU R) isSpur (.alloc b v thr (.test o)) (.ret (.node none)) := by
  intro t s
  refine ⟨⟨.go, rfl, ⟨trivial, rfl⟩, by simp [smach, step, saStep, h1, h2]⟩, fun ch y hy => ?_⟩
  cases ch <;> simp [smach, step, saStep, h1, h2] at hy
  exact hy.symm

/-- The text refines the machine. -/
theorem refinesU (hf : R.Faithful) :
    Refines (unsyncProgram R α) (smach α R) (fun _ _ => True) (okU R) isSpur .err (fun _ => NowU R) AtU 40 where
  call t s o l a hb _ := by
    cases o with
    | construct b v thr =>
      simp [unsyncProgram] at hb
      obtain ⟨rfl, rfl⟩ := hb
      refine ⟨.call (.construct b v thr), _, rfl, ⟨trivial, rfl⟩, rfl, .inl ?_⟩
      leads
      exact .alloc rfl rfl .load
    | destruct n =>
      simp [unsyncProgram] at hb
      obtain ⟨rfl, rfl⟩ := hb
      refine ⟨.call (.destruct n), _, rfl, ⟨trivial, rfl⟩, rfl, .inl ?_⟩
      leads
      exact .destroy rfl
  head l k p h := by
    cases h with
    | alloc _ _ h => exact h.head
    | free h => exact h.head
    | constr => rfl
    | destroy => rfl
    | fin => rfl
  access t s l a k p ch s' l' f hI hat hok hr := by
    generalize hk : Item.stm (.acc a) :: k = K at hat
    cases hat with
    | @alloc _ b v thr a' hv ht ha =>
      subst hk
      obtain ⟨m, r, h1, h2, rfl, ⟨x, rfl⟩, h5, h6⟩ := allocU_access hf ha (show aNow s a' from hI) hr
      have h2 : okU R s (.alloc b v thr a') ch := ⟨h2, ?_⟩
      · cases r with
        | more a₁ =>
          obtain ⟨rfl, i, l₁, k₁, hi, ⟨y, rfl⟩, h9, h10⟩ := h6
          refine ⟨.alloc b v thr a₁, h2, by simp only [smach, step]; erw [h1], ?_⟩
          rcases h10 with h10 | ⟨rfl, h11, o, rfl, h12, h13⟩
          · exact .inl (Leads.reach h9 (Leads.here (n := 0) (.alloc hv ht h10)) (by omega))
          · refine .inr ⟨_, null_silentU h12 h13, Leads.reach h9 (b := 20) ?_ (by omega)⟩
            have h11 : y.node = none := h11
            change Leads 20 AtU { l with fl := y } _ _
            leads
            exact .fin (by simp [h11])
        | got n =>
          obtain ⟨rfl, i, l₁, hi, ⟨y, rfl⟩, h9, h10⟩ := h6
          refine ⟨.constr v thr n, h2, by simp only [smach, step]; erw [h1], .inl (Leads.reach h9 (b := 20) ?_ (by omega))⟩
          have h10 : y.node = some n := h10
          change Leads 20 AtU { l with fl := y } _ _
          leads
          exact .constr hv ht h10
        | null => exact h6.elim
        | badAlloc =>
          obtain ⟨rfl, h8⟩ := h6
          refine ⟨.ret .threw, h2, by simp only [smach, step]; erw [h1], .inl ?_⟩
          simp only [Flow.rest, h8]
          leads
          exact .fin rfl
      · cases ch <;> first | rfl | skip
        exfalso
        generalize hk : Item.stm (.acc a) :: k = K at ha
        cases ha <;> cases hk <;> simp only [Port.loadPool, Port.osAllocate, Port.readLink, Port.storePool, Port.acc] at hr
        all_goals repeat' split at hr
        all_goals simp_all
    | @constr v thr n hv ht hn =>
      cases hk
      simp only [ctor, hn, hv] at hr
      cases ch <;> simp at hr
      by_cases hd : (s.data n).isSome
      · simp [hd] at hr
        obtain ⟨rfl, rfl, rfl⟩ := hr
        exact ⟨.err, ⟨trivial, rfl⟩, by simp [smach, step, hd], rfl⟩
      · by_cases hth : l.thr = true
        · simp [hd, hth] at hr
          obtain ⟨rfl, rfl, rfl⟩ := hr
          refine ⟨.ret .threw, ⟨trivial, rfl⟩, by simp [smach, step, hd, ← ht, hth], .inl ?_⟩
          simp only [Flow.rest]
          leads
          exact .fin rfl
        · simp [hd, hth] at hr
          obtain ⟨rfl, rfl, rfl⟩ := hr
          refine ⟨.ret (.node (some n)), ⟨trivial, rfl⟩, by simp [smach, step, hd, ← ht, hth], .inl ?_⟩
          simp only [Flow.rest, afterCtor]
          leads
          exact .fin (by simp [hn])
    | @destroy n hn =>
      cases hk
      simp only [Port.dtor, Port.acc, port, hn, id] at hr
      cases ch <;> simp at hr
      by_cases hd : (s.data n).isSome
      · simp [hd] at hr
        obtain ⟨⟨rfl, rfl⟩, rfl⟩ := hr
        refine ⟨.free n .load, ⟨trivial, rfl⟩, by simp [smach, step, hd], .inl ?_⟩
        simp only [Flow.rest]
        leads
        exact .free (.load hn)
      · simp [hd] at hr
        obtain ⟨⟨rfl, rfl⟩, rfl⟩ := hr
        exact ⟨.err, ⟨trivial, rfl⟩, by simp [smach, step, hd], rfl⟩
    | @free _ n d hd =>
      subst hk
      obtain ⟨m, r, h1, rfl, ⟨x, rfl⟩, h5, rfl, h6⟩ := deallocU_access hd (show dNow s d from hI) hr
      have h2 : okU R s (.free n d) ch := ⟨trivial, ?_⟩
      · cases r with
        | some d' =>
          obtain ⟨i, l₁, k₁, hi, -, h9, h10⟩ := h6
          exact ⟨.free n d', h2, by simp only [smach, step]; erw [h1],
            .inl (Leads.reach h9 (Leads.here (n := 0) (.free h10)) (by omega))⟩
        | none =>
          refine ⟨.ret .done, h2, by simp only [smach, step]; erw [h1], .inl (Leads.reach h6 (b := 20) ?_)⟩
          simp only [afterFree]
          leads
          exact .fin rfl
      · cases ch <;> first | rfl | skip
        exfalso
        generalize hk : Item.stm (.acc a) :: k = K at hd
        cases hd <;> cases hk <;> simp only [Port.loadPool, Port.setLink, Port.storePool, Port.acc] at hr
        all_goals repeat' split at hr
        all_goals simp_all
    | fin => simp at hk
  fin l p h := by
    generalize hk : ([] : LRest R α) = K at h
    cases h with
    | fin hr => rw [← hr]; rfl
    | alloc _ _ h => exact (h.ne hk.symm).elim
    | free h => exact (h.ne hk.symm).elim
    | _ => cases hk
  res t s r := ⟨.go, rfl, ⟨trivial, rfl⟩, rfl⟩
  env t s p ch s' h := by simp [unsyncProgram] at h

end Verif.Freelist
