import Verif.HeapObs
import Verif.Stack.Model

/-!
# Stack: vocabulary for the property statements

Definitions about the memory and the program counters of the model, without ghosts: contents of the
stack, position of a node, what happens within a call.
-/

namespace Verif.Stack
open Lin

variable {α : Type}

/-- The memory of the stack represents the list `vs`, top first: a null-terminated list of nodes from `tos`
whose payloads are alive and are `vs`. -/
def Holds (s : St α) (vs : List α) : Prop :=
  ∃ S, Chain s.heap.next s.tos.ptr S ∧ S.map s.heap.data = vs.map some

/-- Node `n` is linked in the stack. -/
def InStack (s : St α) (n : Nat) : Prop := Reach s.heap s.tos.ptr n

/-- Node `n` is linked in the freelist. -/
def InFree (s : St α) (n : Nat) : Prop := Reach s.heap s.heap.pool.ptr n

/-- `n` is one of the nodes from `top` to `e`. -/
def OnPath (h : Heap α) (top e n : Nat) : Prop :=
  ∃ l q, Seg h.next (some top) l q ∧ l.Nodup ∧ l.getLast? = some e ∧ n ∈ l

/-- Nodes in the hands of an operation in progress, as seen from its local variables. -/
def HeldBy (h : Heap α) : PC α → Nat → Prop
  | .alloc _ (.range _ (some (top, _)) _ _) _, n => Reach h (some top) n
  | .constr _ (.one _) m, n => n = m
  | .constr _ (.range _ none _ _) m, n => n = m
  | .constr _ (.range _ (some (top, _)) _ _) m, n => n = m ∨ Reach h (some top) n
  | .rlink _ _ none _ _ m, n => n = m
  | .rlink _ _ (some (top, _)) _ _ m, n => n = m ∨ Reach h (some top) n
  | .lload top e _, n | .lset top e _ _, n | .lcas top e _ _, n => OnPath h top e n
  | .papply _ m, n | .pdestroy m _, n => n = m
  | .free (.pop _) m _, n | .free (.rsv _) m _, n => n = m
  | .free (.cons _ _ nx) m _, n | .free (.undo nx) m _, n => n = m ∨ Reach h nx n
  | .crev _ m last, n => Reach h (some m) n ∨ Reach h last n
  | .crevSet _ m last nx, n => n = m ∨ Reach h last n ∨ Reach h nx n
  | .capply _ m _, n | .cread _ m _, n | .undo m, n => Reach h (some m) n
  | .cdestroy _ m _ nx, n | .undoD m nx, n => n = m ∨ Reach h nx n
  | _, _ => False

/-- Nodes whose memory the next step of a thread accesses (other than by comparing handles). -/
def derefs : PC α → List Nat
  | .alloc _ _ (.test o) => o.v.ptr.toList
  | .constr _ _ n | .rlink _ _ _ _ _ n => [n]
  | .lset _ e _ _ => [e]
  | .ptest _ o => o.v.ptr.toList
  | .papply _ n | .pdestroy n _ => [n]
  | .free _ n (.set _) => [n]
  | .crev _ n _ | .crevSet _ n _ _ | .capply _ n _ | .cread _ n _ | .cdestroy _ n _ _ => [n]
  | .undo n | .undoD n _ => [n]
  | _ => []

/-- Nodes whose link word or payload the next step of a thread writes, or whose payload it reads. -/
def uses : PC α → List Nat
  | .constr _ _ n | .rlink _ _ _ _ _ n => [n]
  | .lset _ e _ _ => [e]
  | .papply _ n | .pdestroy n _ => [n]
  | .free _ n (.set _) => [n]
  | .crevSet _ n _ _ | .capply _ n _ | .cdestroy _ n _ _ => [n]
  | .undoD n _ => [n]
  | _ => []

/-- The step function as a relation (proof device; `trans_of_tstep` says it contains `tstep`). -/
inductive Trans (cfg : Cfg) (t : Nat) (s : St α) :
    PC α → Choice (Op α) → St α → PC α → Option (Event (Op α) (Ret α)) → Prop where
  | call {o p} : start cfg o = some p → Trans cfg t s .idle (.call o) s p (some (.inv t o))
  | allocMore {b k a ch h a'} : aStep cfg b s.heap a ch = some (h, .more a') →
      Trans cfg t s (.alloc b k a) ch { s with heap := h } (.alloc b k a') none
  | allocGot {b k a ch h n} : aStep cfg b s.heap a ch = some (h, .got n) →
      Trans cfg t s (.alloc b k a) ch { s with heap := h } (.constr b k n) none
  | allocNull {b k a ch h} : aStep cfg b s.heap a ch = some (h, .null) →
      Trans cfg t s (.alloc b k a) ch { s with heap := h } (onNull k) none
  | allocBad {b k a ch h} : aStep cfg b s.heap a ch = some (h, .badAlloc) →
      Trans cfg t s (.alloc b k a) ch { s with heap := h } (onThrow k) none
  | constrErr {b k n} : (s.heap.data n).isSome → Trans cfg t s (.constr b k n) .go s .err none
  | constrOne {b v n} : s.heap.data n = none →
      Trans cfg t s (.constr b (.one v) n) .go { s with heap := s.heap.setData n (some v) }
        (.lload n n (.pushed true)) none
  | constrRange {b acc te v rest n} : s.heap.data n = none →
      Trans cfg t s (.constr b (.range acc te v rest) n) .go { s with heap := s.heap.setData n (some v) }
        (.rlink b acc te v rest n) none
  | constrThrow {b k n} : Trans cfg t s (.constr b k n) .throw s (onThrow k) none
  | rlinkFirst {b acc v rest n} : Trans cfg t s (.rlink b acc none v rest n) .go
      { s with heap := s.heap.setNextPtr n none } (onLinked b (acc ++ [v]) n n rest) none
  | rlinkNext {b acc top e v rest n} : Trans cfg t s (.rlink b acc (some (top, e)) v rest n) .go
      { s with heap := s.heap.setNextPtr n (some top) } (onLinked b (acc ++ [v]) n e rest) none
  | lload {top e r} : Trans cfg t s (.lload top e r) .go s (.lset top e s.tosSnap r) none
  | lset {top e o r} : Trans cfg t s (.lset top e o r) .go { s with heap := s.heap.setNextPtr e o.v.ptr }
      (.lcas top e o r) none
  | lcasOk {top e o r} : s.tos = o.v →
      Trans cfg t s (.lcas top e o r) .go { s with tos := ⟨some top, o.v.tag⟩ } (.ret r) none
  | lcasFail {top e o r ch} : (ch = .go ∧ s.tos ≠ o.v ∨ ch = .spur) →
      Trans cfg t s (.lcas top e o r) ch s (.lset top e s.tosSnap r) none
  | pload {thr} : Trans cfg t s (.pload thr) .go s (.ptest thr s.tosSnap) none
  | ptestNull {thr o} : o.v.ptr = none → Trans cfg t s (.ptest thr o) .go s (.ret (.popped none)) none
  | ptestSome {thr o n} : o.v.ptr = some n →
      Trans cfg t s (.ptest thr o) .go s (.pcas thr o (s.heap.next n).ptr) none
  | ptestRacy {thr o n x} : o.v.ptr = some n → s.tosVer ≠ o.ver →
      Trans cfg t s (.ptest thr o) (.racy x) s (.pcas thr o x) none
  | pcasOk {thr o nx n} : s.tos = o.v → o.v.ptr = some n →
      Trans cfg t s (.pcas thr o nx) .go
        { s with tos := ⟨nx, cfg.nextTag o.v.tag⟩, tosVer := s.tosVer + 1 } (.papply thr n) none
  | pcasFail {thr o nx ch} : (ch = .go ∧ s.tos ≠ o.v ∨ ch = .spur) →
      Trans cfg t s (.pcas thr o nx) ch s (.ptest thr s.tosSnap) none
  | papplyErr {thr n} : s.heap.data n = none → Trans cfg t s (.papply thr n) .go s .err none
  | papplyThrow {n v} : s.heap.data n = some v →
      Trans cfg t s (.papply true n) .go s (.ret (.popped (some v))) none
  | papply {n v} : s.heap.data n = some v → Trans cfg t s (.papply false n) .go s (.pdestroy n v) none
  | pdestroyErr {n v} : s.heap.data n = none → Trans cfg t s (.pdestroy n v) .go s .err none
  | pdestroy {n v} : s.heap.data n ≠ none →
      Trans cfg t s (.pdestroy n v) .go { s with heap := s.heap.setData n none } (.free (.pop v) n .load) none
  | freeMore {k n d ch h d'} : dStep s.heap n d ch = some (h, some d') →
      Trans cfg t s (.free k n d) ch { s with heap := h } (.free k n d') none
  | freeDone {k n d ch h} : dStep s.heap n d ch = some (h, none) →
      Trans cfg t s (.free k n d) ch { s with heap := h } (onFreed k) none
  | cload {rev thr} : Trans cfg t s (.cload rev thr) .go s (.ctest rev thr s.tosSnap) none
  | ctestNull {rev thr o} : o.v.ptr = none → Trans cfg t s (.ctest rev thr o) .go s (.ret (.took [])) none
  | ctestSome {rev thr o} : o.v.ptr ≠ none → Trans cfg t s (.ctest rev thr o) .go s (.ccas rev thr o) none
  | ccasOk {rev thr o n} : s.tos = o.v → o.v.ptr = some n →
      Trans cfg t s (.ccas rev thr o) .go
        { s with tos := ⟨none, cfg.nextTag o.v.tag⟩, tosVer := s.tosVer + 1 }
        (if rev then .crev thr n none else .capply thr n []) none
  | ccasFail {rev thr o ch} : (ch = .go ∧ s.tos ≠ o.v ∨ ch = .spur) →
      Trans cfg t s (.ccas rev thr o) ch s (.ctest rev thr s.tosSnap) none
  | crev {thr n last} : Trans cfg t s (.crev thr n last) .go s (.crevSet thr n last (s.heap.next n).ptr) none
  | crevSetLast {thr n last} : Trans cfg t s (.crevSet thr n last none) .go
      { s with heap := s.heap.setNextPtr n last } (.capply thr n []) none
  | crevSetMore {thr n last m} : Trans cfg t s (.crevSet thr n last (some m)) .go
      { s with heap := s.heap.setNextPtr n last } (.crev thr m (some n)) none
  | capplyErr {thr n acc} : s.heap.data n = none → Trans cfg t s (.capply thr n acc) .go s .err none
  | capplyThrow {thr n acc v} : s.heap.data n = some v → thr = some acc.length →
      Trans cfg t s (.capply thr n acc) .go s (.ret (.took (acc ++ [v]))) none
  | capply {thr n acc v} : s.heap.data n = some v → thr ≠ some acc.length →
      Trans cfg t s (.capply thr n acc) .go s (.cread thr n (acc ++ [v])) none
  | cread {thr n acc} : Trans cfg t s (.cread thr n acc) .go s (.cdestroy thr n acc (s.heap.next n).ptr) none
  | cdestroyErr {thr n acc nx} : s.heap.data n = none → Trans cfg t s (.cdestroy thr n acc nx) .go s .err none
  | cdestroy {thr n acc nx} : s.heap.data n ≠ none → Trans cfg t s (.cdestroy thr n acc nx) .go
      { s with heap := s.heap.setData n none } (.free (.cons thr acc nx) n .load) none
  | eload : Trans cfg t s .eload .go s (.ret (.isEmpty s.tos.ptr.isNone)) none
  | rsvDone : Trans cfg t s (.rsv 0) .go s (.ret .reserved) none
  | rsv {k} : Trans cfg t s (.rsv (k + 1)) .go { s with heap := s.heap.malloc }
      (.free (.rsv k) s.heap.nalloc .load) none
  | rsvThrow {k} : Trans cfg t s (.rsv (k + 1)) .throw s (.ret .threw) none
  | undo {n} : Trans cfg t s (.undo n) .go s (.undoD n (s.heap.next n).ptr) none
  | undoDErr {n nx} : s.heap.data n = none → Trans cfg t s (.undoD n nx) .go s .err none
  | undoD {n nx} : s.heap.data n ≠ none → Trans cfg t s (.undoD n nx) .go
      { s with heap := s.heap.setData n none } (.free (.undo nx) n .load) none
  | ret {r} : Trans cfg t s (.ret r) .go s .idle (some (.res t r))

theorem trans_of_tstep {cfg : Cfg} {t : Nat} {s s' : St α} {p p' : PC α} {ch e}
    (hs : tstep cfg t s p ch = some (s', p', e)) : Trans cfg t s p ch s' p' e := by
  cases p with
  | alloc b k a =>
    simp only [tstep] at hs
    split at hs <;> simp at hs <;> obtain ⟨rfl, rfl, rfl⟩ := hs
    · exact .allocMore (by assumption)
    · exact .allocGot (by assumption)
    · exact .allocNull (by assumption)
    · exact .allocBad (by assumption)
  | free k n d =>
    simp only [tstep] at hs
    split at hs <;> simp at hs <;> obtain ⟨rfl, rfl, rfl⟩ := hs
    · exact .freeMore (by assumption)
    · exact .freeDone (by assumption)
  | idle =>
    cases ch <;> simp [tstep] at hs
    obtain ⟨p, h1, rfl, rfl, rfl⟩ := hs
    exact .call h1
  | constr b k n =>
    cases ch <;> simp [tstep] at hs
    · split at hs
      · simp at hs; obtain ⟨rfl, rfl, rfl⟩ := hs; exact .constrErr (by assumption)
      · rename_i hd
        simp at hd
        split at hs <;> simp at hs <;> obtain ⟨rfl, rfl, rfl⟩ := hs
        · exact .constrOne hd
        · exact .constrRange hd
    · obtain ⟨rfl, rfl, rfl⟩ := hs; exact .constrThrow
  | rlink b acc te v rest n =>
    cases ch <;> simp [tstep] at hs
    split at hs <;> simp at hs <;> obtain ⟨rfl, rfl, rfl⟩ := hs
    · exact .rlinkFirst
    · exact .rlinkNext
  | lcas top e o r =>
    cases ch <;> simp [tstep] at hs
    · split at hs <;> simp at hs <;> obtain ⟨rfl, rfl, rfl⟩ := hs
      · exact .lcasOk (by assumption)
      · exact .lcasFail (.inl ⟨rfl, by assumption⟩)
    · obtain ⟨rfl, rfl, rfl⟩ := hs; exact .lcasFail (.inr rfl)
  | ptest thr o =>
    simp only [tstep] at hs
    split at hs
    · simp at hs; obtain ⟨rfl, rfl, rfl⟩ := hs; exact .ptestNull (by assumption)
    · simp at hs; obtain ⟨rfl, rfl, rfl⟩ := hs; exact .ptestSome (by assumption)
    · split at hs
      · simp at hs
      · simp at hs; obtain ⟨rfl, rfl, rfl⟩ := hs; exact .ptestRacy (by assumption) (by assumption)
    · simp at hs
  | pcas thr o nx =>
    cases ch <;> simp [tstep] at hs
    · split at hs
      · split at hs <;> simp at hs
        obtain ⟨rfl, rfl, rfl⟩ := hs; exact .pcasOk (by assumption) (by assumption)
      · simp at hs; obtain ⟨rfl, rfl, rfl⟩ := hs; exact .pcasFail (.inl ⟨rfl, by assumption⟩)
    · obtain ⟨rfl, rfl, rfl⟩ := hs; exact .pcasFail (.inr rfl)
  | ccas rev thr o =>
    cases ch <;> simp [tstep] at hs
    · split at hs
      · split at hs <;> simp at hs
        obtain ⟨rfl, rfl, rfl⟩ := hs; exact .ccasOk (by assumption) (by assumption)
      · simp at hs; obtain ⟨rfl, rfl, rfl⟩ := hs; exact .ccasFail (.inl ⟨rfl, by assumption⟩)
    · obtain ⟨rfl, rfl, rfl⟩ := hs; exact .ccasFail (.inr rfl)
  | papply thr n =>
    cases ch <;> simp [tstep] at hs
    split at hs
    · simp at hs; obtain ⟨rfl, rfl, rfl⟩ := hs; exact .papplyErr (by assumption)
    · split at hs <;> simp at hs <;> obtain ⟨rfl, rfl, rfl⟩ := hs
      · subst thr; exact .papplyThrow (by assumption)
      · rename_i h; simp at h; subst h; exact .papply (by assumption)
  | pdestroy n v =>
    cases ch <;> simp [tstep] at hs
    split at hs <;> simp at hs <;> obtain ⟨rfl, rfl, rfl⟩ := hs
    · exact .pdestroyErr (by assumption)
    · exact .pdestroy (by simp_all)
  | ctest rev thr o =>
    cases ch <;> simp [tstep] at hs
    split at hs <;> simp at hs <;> obtain ⟨rfl, rfl, rfl⟩ := hs
    · exact .ctestNull (by assumption)
    · exact .ctestSome (by simp_all)
  | crevSet thr n last nx =>
    cases ch <;> simp [tstep] at hs
    obtain ⟨rfl, rfl, rfl⟩ := hs
    cases nx
    · exact .crevSetLast
    · exact .crevSetMore
  | capply thr n acc =>
    cases ch <;> simp [tstep] at hs
    split at hs
    · simp at hs; obtain ⟨rfl, rfl, rfl⟩ := hs; exact .capplyErr (by assumption)
    · split at hs <;> simp at hs <;> obtain ⟨rfl, rfl, rfl⟩ := hs
      · exact .capplyThrow (by assumption) (by assumption)
      · exact .capply (by assumption) (by assumption)
  | cdestroy thr n acc nx =>
    cases ch <;> simp [tstep] at hs
    split at hs <;> simp at hs <;> obtain ⟨rfl, rfl, rfl⟩ := hs
    · exact .cdestroyErr (by assumption)
    · exact .cdestroy (by simp_all)
  | undoD n nx =>
    cases ch <;> simp [tstep] at hs
    split at hs <;> simp at hs <;> obtain ⟨rfl, rfl, rfl⟩ := hs
    · exact .undoDErr (by assumption)
    · exact .undoD (by simp_all)
  | rsv k =>
    cases k <;> cases ch <;> simp [tstep] at hs <;> obtain ⟨rfl, rfl, rfl⟩ := hs
    · exact .rsvDone
    · exact .rsv
    · exact .rsvThrow
  | lload | lset | pload | cload | crev | cread | eload | undo | ret | err =>
    cases ch <;> simp [tstep] at hs <;> (obtain ⟨rfl, rfl, rfl⟩ := hs; constructor)

/-- The possible effects of one step on the shared state. -/
inductive Eff (cfg : Cfg) (s : St α) : St α → Prop where
  | same : Eff cfg s s
  | alloc {b a ch h r} : aStep (Op := Op α) cfg b s.heap a ch = some (h, r) → Eff cfg s { s with heap := h }
  | free {n d ch h r} : dStep (Op := Op α) s.heap n d ch = some (h, r) → Eff cfg s { s with heap := h }
  | setNext (n p) : Eff cfg s { s with heap := s.heap.setNextPtr n p }
  | setData (n d) : Eff cfg s { s with heap := s.heap.setData n d }
  | malloc : Eff cfg s { s with heap := s.heap.malloc }
  | link (top) : Eff cfg s { s with tos := ⟨some top, s.tos.tag⟩ }
  | remove (p) : Eff cfg s { s with tos := ⟨p, cfg.nextTag s.tos.tag⟩, tosVer := s.tosVer + 1 }

theorem tstep_eff {cfg : Cfg} {t : Nat} {s : St α} {p : PC α} {ch} {s' p' e}
    (hs : tstep cfg t s p ch = some (s', p', e)) : Eff cfg s s' := by
  cases trans_of_tstep hs with
  | lcasOk h => rw [← h]; exact .link _
  | pcasOk h => rw [← h]; exact .remove _
  | ccasOk h => rw [← h]; exact .remove _
  | allocMore h | allocGot h | allocNull h | allocBad h => exact .alloc h
  | freeMore h | freeDone h => exact .free h
  | _ => first | exact .same | exact .setNext _ _ | exact .setData _ _ | exact .malloc

theorem Eff.ver_mono {cfg : Cfg} {s s' : St α} (he : Eff cfg s s') :
    s.tosVer ≤ s'.tosVer ∧ s.heap.poolVer ≤ s'.heap.poolVer := by
  cases he with
  | alloc h => exact ⟨Nat.le_refl _, aStep_ver h⟩
  | free h => exact ⟨Nat.le_refl _, Nat.le_of_eq (dStep_ver h).1.symm⟩
  | _ => simp [Heap.setNextPtr, Heap.setData, Heap.malloc]

/-- An execution in which the pool and the top of stack each saw fewer removals than there are tags is
an execution without a complete tag wrap. -/
theorem Exec.fresh {cfg : Cfg} {n : Nat} {h} {C : Conf α} (hx : Exec cfg n h C)
    (hw : cfg.M = 0 ∨ (C.s.tosVer < cfg.M ∧ C.s.heap.poolVer < cfg.M))
    (hne : ∀ t b, Event.inv t (.pushRange b []) ∉ h) : FreshExec cfg n h C := by
  induction hx with
  | refl => exact .refl _
  | @step h C t ch s' p' e hx hs _ ih =>
    replace hs : tstep cfg t C.s (C.pc t) ch = some (s', p', e) := hs
    have hm := (tstep_eff hs).ver_mono
    refine .step (ih ?_ ?_) hs ⟨?_, ?_⟩
    · rcases hw with hw | hw
      · exact .inl hw
      · exact .inr ⟨by simp only at hw; omega, by simp only at hw; omega⟩
    · intro t b hh; exact hne t b (by simp [hh])
    · have hw' : cfg.M = 0 ∨ C.s.tosVer < cfg.M ∧ C.s.heap.poolVer < cfg.M := by
        rcases hw with hw | hw
        · exact .inl hw
        · exact .inr ⟨by simp only at hw; omega, by simp only at hw; omega⟩
      generalize C.pc t = p
      cases p with
      | alloc b k a => cases a <;> simp [Stack.fresh, aFresh]; omega
      | pcas => simp [Stack.fresh]; omega
      | ccas => simp [Stack.fresh]; omega
      | _ => trivial
    · rintro b rfl
      generalize hp : C.pc t = p at hs
      cases p with
      | idle =>
        simp only [tstep, Option.map_eq_some_iff, Prod.mk.injEq] at hs
        obtain ⟨_, _, _, _, rfl⟩ := hs
        exact hne t b (by simp)
      | alloc b k a => simp [tstep, aStep_call] at hs
      | free k n d => cases d <;> simp [tstep, dStep] at hs
      | ptest thr o => simp [tstep] at hs
      | rsv k => cases k <;> simp [tstep] at hs
      | _ => simp [tstep] at hs

theorem lawful (cfg : Cfg) : (mach α cfg).Lawful := by
  intro t s p ch s' p' e hs
  change tstep cfg t s p ch = _ at hs
  cases trans_of_tstep hs <;> simp [mach]

end Verif.Stack
