import Verif.HeapObs
import Verif.Queue.Model

/-!
# Queue: vocabulary for the property statements

Definitions about the memory and the program counters of the model, without ghosts.
-/

namespace Verif.Queue
open Lin

variable {α : Type}

/-- The memory of the queue represents the list `vs`, front first: `head_` points to a dummy node `d`, from whose
`next` a null-terminated list of nodes starts whose payloads are alive and are `vs`. -/
def Holds (s : St α) (vs : List α) : Prop :=
  ∃ d S, s.head.ptr = some d ∧ Chain s.heap.next (s.heap.next d).ptr S ∧ S.map s.heap.data = vs.map some

/-- Node `n` is linked in the queue (as the dummy or as an element). -/
def InQueue (s : St α) (n : Nat) : Prop := Reach s.heap s.head.ptr n

/-- Node `n` is linked in the freelist. -/
def InFree (s : St α) (n : Nat) : Prop := Reach s.heap s.heap.pool.ptr n

/-- The node in the hands of an operation in progress, as seen from its local variables. -/
def HeldBy : PC α → Nat → Prop
  | .constr _ _ m, n | .nload _ _ m, n | .nstore _ _ m _, n | .pTail m, n | .pNext m _, n | .pCheck m _ _, n
  | .pCas m _ _, n | .swing (.retryPush m) _ _, n | .cDestroy m _, n | .free _ m _, n => n = m
  | _, _ => False

/-- Nodes whose memory the next step of a thread accesses (other than by comparing handles). -/
def derefs : PC α → List Nat
  | .alloc _ _ (.test o) => o.v.ptr.toList
  | .constr _ _ n | .nload _ _ n | .nstore _ _ n _ => [n]
  | .pNext _ T => T.v.ptr.toList
  | .pCas _ T _ => T.v.ptr.toList
  | .cNext H _ => H.v.ptr.toList
  | .cData _ y => [y]
  | .cDestroy n _ => [n]
  | .free _ n (.set _) => [n]
  | _ => []

/-- Nodes whose payload or link word the next step of a thread writes without a compare-exchange. -/
def writes : PC α → List Nat
  | .constr _ _ n | .nstore _ _ n _ => [n]
  | .cDestroy n _ => [n]
  | .free _ n (.set _) => [n]
  | _ => []

/-- The step function as a relation (proof device; `trans_of_tstep` says it contains `tstep`). -/
inductive Trans (cfg : Cfg) (t : Nat) (s : St α) :
    PC α → QChoice α → St α → PC α → Option (Event (Op α) (Ret α)) → Prop where
  | call {o p} : start cfg o = some p → Trans cfg t s .idle (.base (.call o)) s p (some (.inv t o))
  | allocMore {b v a ch h a'} : aStep cfg b s.heap a ch = some (h, .more a') →
      Trans cfg t s (.alloc b v a) (.base ch) { s with heap := h } (.alloc b v a') none
  | allocGot {b v a ch h n} : aStep cfg b s.heap a ch = some (h, .got n) →
      Trans cfg t s (.alloc b v a) (.base ch) { s with heap := h } (.constr b v n) none
  | allocNull {b v a ch h} : aStep cfg b s.heap a ch = some (h, .null) →
      Trans cfg t s (.alloc b v a) (.base ch) { s with heap := h } (.ret (.pushed false)) none
  | allocBad {b v a ch h} : aStep cfg b s.heap a ch = some (h, .badAlloc) →
      Trans cfg t s (.alloc b v a) (.base ch) { s with heap := h } (.ret .threw) none
  | constrErr {b v n} : (s.heap.data n).isSome → Trans cfg t s (.constr b v n) (.base .go) s .err none
  | constr {b v n} : s.heap.data n = none →
      Trans cfg t s (.constr b v n) (.base .go) { s with heap := s.heap.setData n (some v) } (.nload b v n) none
  | constrThrow {b v n} : Trans cfg t s (.constr b v n) (.base .throw) s (.ret .threw) none
  | nload {b v n} : Trans cfg t s (.nload b v n) (.base .go) s (.nstore b v n (s.heap.next n)) none
  | nstore {b v n o} : Trans cfg t s (.nstore b v n o) (.base .go)
      { s with heap := { s.heap with next := upd s.heap.next n ⟨none, cfg.nextTag o.tag⟩,
                                     nver := upd s.heap.nver n (s.heap.nver n + 1) } } (.pTail n) none
  | pTail {n} : Trans cfg t s (.pTail n) (.base .go) s (.pNext n s.tailSnap) none
  | pNextErr {n T ch} : T.v.ptr = none → Trans cfg t s (.pNext n T) ch s .err none
  | pNext {n T x} : T.v.ptr = some x →
      Trans cfg t s (.pNext n T) (.base .go) s (.pCheck n T (s.nextSnap x)) none
  | pNextTorn {n T x w} : T.v.ptr = some x → s.tailVer ≠ T.ver →
      Trans cfg t s (.pNext n T) (.torn w) s (.pCheck n T ⟨w, s.heap.nver x⟩) none
  | pCheck {n T N} : s.tail = T.v → Trans cfg t s (.pCheck n T N) (.base .go) s (pBranch n T N) none
  | pCheckFail {n T N} : s.tail ≠ T.v → Trans cfg t s (.pCheck n T N) (.base .go) s (.pTail n) none
  | pCasErr {n T N} : T.v.ptr = none → Trans cfg t s (.pCas n T N) (.base .go) s .err none
  | pCas {n T N x} : T.v.ptr = some x → s.heap.next x = N.v →
      Trans cfg t s (.pCas n T N) (.base .go)
        { s with heap := { s.heap with next := upd s.heap.next x ⟨some n, cfg.nextTag N.v.tag⟩,
                                       nver := upd s.heap.nver x (s.heap.nver x + 1) } }
        (.swing .donePush T n) none
  | pCasFail {n T N ch} : (ch = .base .go ∧ (∃ x, T.v.ptr = some x ∧ s.heap.next x ≠ N.v) ∨ ch = .base .spur) →
      Trans cfg t s (.pCas n T N) ch s (.pTail n) none
  | swing {k T y} : s.tail = T.v → Trans cfg t s (.swing k T y) (.base .go)
      { s with tail := ⟨some y, cfg.nextTag T.v.tag⟩, tailVer := s.tailVer + 1 } (onSwung k) none
  | swingFail {k T y} : s.tail ≠ T.v → Trans cfg t s (.swing k T y) (.base .go) s (onSwung k) none
  | cHead : Trans cfg t s .cHead (.base .go) s (.cTail s.headSnap) none
  | cTail {H} : Trans cfg t s (.cTail H) (.base .go) s (.cNext H s.tailSnap) none
  | cNextErr {H T ch} : H.v.ptr = none → Trans cfg t s (.cNext H T) ch s .err none
  | cNext {H T x} : H.v.ptr = some x →
      Trans cfg t s (.cNext H T) (.base .go) s (.cCheck H T (s.nextSnap x)) none
  | cNextTorn {H T x w} : H.v.ptr = some x → ¬ (s.headVer = H.ver ∨ s.tail.ptr = some x) →
      Trans cfg t s (.cNext H T) (.torn w) s (.cCheck H T ⟨w, s.heap.nver x⟩) none
  | cCheck {H T N} : s.head = H.v → Trans cfg t s (.cCheck H T N) (.base .go) s (cBranch H T N) none
  | cCheckFail {H T N} : s.head ≠ H.v → Trans cfg t s (.cCheck H T N) (.base .go) s .cHead none
  | cData {H y v} : s.heap.data y = some v → Trans cfg t s (.cData H y) (.base .go) s (.cCas H y v) none
  | cDataErr {H y} : s.heap.data y = none → s.headVer = H.ver →
      Trans cfg t s (.cData H y) (.base .go) s .err none
  | cDataGarbage {H y v} : s.headVer ≠ H.ver → Trans cfg t s (.cData H y) (.garbage v) s (.cCas H y v) none
  | cDataThrow {H y} : Trans cfg t s (.cData H y) (.base .throw) s (.ret .threw) none
  | cCas {H y v x} : s.head = H.v → H.v.ptr = some x → Trans cfg t s (.cCas H y v) (.base .go)
      { s with head := ⟨some y, cfg.nextTag H.v.tag⟩, headVer := s.headVer + 1 } (.cDestroy x v) none
  | cCasFail {H y v ch} : (ch = .base .go ∧ s.head ≠ H.v ∨ ch = .base .spur) →
      Trans cfg t s (.cCas H y v) ch s .cHead none
  | cDestroy {n v} : Trans cfg t s (.cDestroy n v) (.base .go)
      { s with heap := s.heap.setData n none } (.free (.pop v) n .load) none
  | freeMore {k n d ch h d'} : dStep s.heap n d ch = some (h, some d') →
      Trans cfg t s (.free k n d) (.base ch) { s with heap := h } (.free k n d') none
  | freeDone {k n d ch h} : dStep s.heap n d ch = some (h, none) →
      Trans cfg t s (.free k n d) (.base ch) { s with heap := h } (onFreed k) none
  | eHead : Trans cfg t s .eHead (.base .go) s (.eTail s.headSnap) none
  | eHead' : Trans cfg t s .eHead (.base .spur) s (.eHead2 s.tailSnap) none
  | eHead2 {T} : Trans cfg t s (.eHead2 T) (.base .go) s (.ret (.isEmpty (s.head.ptr == T.v.ptr))) none
  | eTail {H} : Trans cfg t s (.eTail H) (.base .go) s (.ret (.isEmpty (H.v.ptr == s.tail.ptr))) none
  | rsvDone : Trans cfg t s (.rsv 0) (.base .go) s (.ret .reserved) none
  | rsv {k} : Trans cfg t s (.rsv (k + 1)) (.base .go) { s with heap := s.heap.malloc }
      (.free (.rsv k) s.heap.nalloc .load) none
  | rsvThrow {k} : Trans cfg t s (.rsv (k + 1)) (.base .throw) s (.ret .threw) none
  | ret {r} : Trans cfg t s (.ret r) (.base .go) s .idle (some (.res t r))

theorem trans_of_tstep {cfg : Cfg} {t : Nat} {s s' : St α} {p p' : PC α} {ch e}
    (hs : tstep cfg t s p ch = some (s', p', e)) : Trans cfg t s p ch s' p' e := by
  cases p with
  | alloc b v a =>
    rcases ch with ch | w | x <;> simp only [tstep, reduceCtorEq] at hs
    split at hs <;> simp at hs <;> obtain ⟨rfl, rfl, rfl⟩ := hs
    · exact .allocMore (by assumption)
    · exact .allocGot (by assumption)
    · exact .allocNull (by assumption)
    · exact .allocBad (by assumption)
  | free k n d =>
    rcases ch with ch | w | x <;> simp only [tstep, reduceCtorEq] at hs
    split at hs <;> simp at hs <;> obtain ⟨rfl, rfl, rfl⟩ := hs
    · exact .freeMore (by assumption)
    · exact .freeDone (by assumption)
  | idle =>
    rcases ch with ch | w | x <;> (try cases ch) <;> simp [tstep] at hs
    obtain ⟨p, h1, rfl, rfl, rfl⟩ := hs
    exact .call h1
  | constr b v n =>
    rcases ch with ch | w | x <;> (try cases ch) <;> simp [tstep] at hs
    · split at hs
      · simp at hs; obtain ⟨rfl, rfl, rfl⟩ := hs; exact .constrErr (by assumption)
      · rename_i hd
        simp at hd
        simp at hs
        obtain ⟨rfl, rfl, rfl⟩ := hs
        exact .constr hd
    · obtain ⟨rfl, rfl, rfl⟩ := hs; exact .constrThrow
  | pNext n T =>
    simp only [tstep] at hs
    split at hs
    · simp at hs; obtain ⟨rfl, rfl, rfl⟩ := hs; exact .pNextErr (by assumption)
    · split at hs
      · simp at hs; obtain ⟨rfl, rfl, rfl⟩ := hs; exact .pNext (by assumption)
      · split at hs <;> simp at hs; obtain ⟨rfl, rfl, rfl⟩ := hs; exact .pNextTorn (by assumption) (by assumption)
      · simp at hs
  | cNext H T =>
    simp only [tstep] at hs
    split at hs
    · simp at hs; obtain ⟨rfl, rfl, rfl⟩ := hs; exact .cNextErr (by assumption)
    · split at hs
      · simp at hs; obtain ⟨rfl, rfl, rfl⟩ := hs; exact .cNext (by assumption)
      · split at hs
        · simp at hs
        · simp at hs; obtain ⟨rfl, rfl, rfl⟩ := hs; exact .cNextTorn (by assumption) (by assumption)
      · simp at hs
  | pCheck n T N =>
    rcases ch with ch | w | x <;> (try cases ch) <;> simp [tstep] at hs
    split at hs <;> simp at hs <;> obtain ⟨rfl, rfl, rfl⟩ := hs
    · exact .pCheck (by assumption)
    · exact .pCheckFail (by assumption)
  | cCheck H T N =>
    rcases ch with ch | w | x <;> (try cases ch) <;> simp [tstep] at hs
    split at hs <;> simp at hs <;> obtain ⟨rfl, rfl, rfl⟩ := hs
    · exact .cCheck (by assumption)
    · exact .cCheckFail (by assumption)
  | pCas n T N =>
    rcases ch with ch | w | x <;> (try cases ch) <;> simp [tstep] at hs
    · split at hs
      · simp at hs; obtain ⟨rfl, rfl, rfl⟩ := hs; exact .pCasErr (by assumption)
      · split at hs <;> simp at hs <;> obtain ⟨rfl, rfl, rfl⟩ := hs
        · exact .pCas (by assumption) (by assumption)
        · exact .pCasFail (.inl ⟨rfl, _, by assumption, by assumption⟩)
    · obtain ⟨rfl, rfl, rfl⟩ := hs; exact .pCasFail (.inr rfl)
  | swing k T y =>
    rcases ch with ch | w | x <;> (try cases ch) <;> simp [tstep] at hs
    obtain ⟨rfl, rfl, rfl⟩ := hs
    unfold St.swingTail
    split
    · exact .swing (by assumption)
    · exact .swingFail (by assumption)
  | cData H y =>
    simp only [tstep] at hs
    split at hs
    · split at hs
      · simp at hs; obtain ⟨rfl, rfl, rfl⟩ := hs; exact .cData (by assumption)
      · split at hs <;> simp at hs; obtain ⟨rfl, rfl, rfl⟩ := hs; exact .cDataErr (by assumption) (by assumption)
    · split at hs <;> simp at hs; obtain ⟨rfl, rfl, rfl⟩ := hs; exact .cDataGarbage (by assumption)
    · simp at hs; obtain ⟨rfl, rfl, rfl⟩ := hs; exact .cDataThrow
    · simp at hs
  | cCas H y v =>
    rcases ch with ch | w | x <;> (try cases ch) <;> simp [tstep] at hs
    · split at hs
      · split at hs <;> simp at hs; obtain ⟨rfl, rfl, rfl⟩ := hs; exact .cCas (by assumption) (by assumption)
      · simp at hs; obtain ⟨rfl, rfl, rfl⟩ := hs; exact .cCasFail (.inl ⟨rfl, by assumption⟩)
    · obtain ⟨rfl, rfl, rfl⟩ := hs; exact .cCasFail (.inr rfl)
  | rsv k =>
    cases k <;> rcases ch with ch | w | x <;> (try cases ch) <;> simp [tstep] at hs <;>
      obtain ⟨rfl, rfl, rfl⟩ := hs
    · exact .rsvDone
    · exact .rsv
    · exact .rsvThrow
  | nload | nstore | pTail | cHead | cTail | cDestroy | eHead | eHead2 | eTail | ret | err =>
    rcases ch with ch | w | x <;> (try cases ch) <;> simp [tstep] at hs <;>
      (obtain ⟨rfl, rfl, rfl⟩ := hs; constructor)

theorem lawful (cfg : Cfg) : (mach α cfg).Lawful := by
  intro t s p ch s' p' e hs
  have ht := trans_of_tstep (show tstep cfg t s p ch = some (s', p', some e) from hs)
  cases ht with
  | call h => exact .inl ⟨rfl, _, rfl⟩
  | ret => exact .inr ⟨_, rfl, rfl, rfl⟩

theorem start_ne {cfg : Cfg} {o : Op α} {p} (hp : start cfg o = some p) :
    p ≠ .idle ∧ (∀ r, p ≠ .ret r) ∧ (∀ b v o, p ≠ .alloc b v (.test o)) ∧ (∀ k T y, p ≠ .swing k T y) ∧
      ∀ H T N, p ≠ .cCheck H T N := by
  unfold start at hp
  split at hp <;> (repeat' split at hp) <;> simp at hp <;> subst hp <;> simp

/-- No step decreases a version. -/
theorem tstep_ver {cfg : Cfg} {t : Nat} {s s' : St α} {p p' : PC α} {ch e}
    (hs : tstep cfg t s p ch = some (s', p', e)) :
    s.headVer ≤ s'.headVer ∧ s.tailVer ≤ s'.tailVer ∧ s.heap.poolVer ≤ s'.heap.poolVer ∧
      s.heap.nalloc ≤ s'.heap.nalloc ∧ ∀ x < s.heap.nalloc, s.heap.nver x ≤ s'.heap.nver x := by
  have hm : ∀ x < s.heap.nalloc, s.heap.nver x ≤ s.heap.malloc.nver x := by
    intro x hx; simp only [Heap.malloc]; rw [upd_ne _ _ _ (by omega)]; exact Nat.le_refl _
  have ha : ∀ {b a ch h r}, aStep (Op := Op α) cfg b s.heap a ch = some (h, r) →
      s.heap.nalloc ≤ h.nalloc ∧ ∀ x < s.heap.nalloc, s.heap.nver x ≤ h.nver x := by
    intro b a ch h r hh
    refine ⟨by rcases aStep_nalloc hh with h | h <;> omega, ?_⟩
    cases a with
    | load => cases ch <;> simp [aStep] at hh; rw [← hh.1]; simp
    | test o =>
      simp only [aStep] at hh
      split at hh
      · split at hh
        · split at hh <;> simp at hh; rw [← hh.1]; simp
        · split at hh <;> simp at hh
          · rw [← hh.1]; exact hm
          · rw [← hh.1]; simp
      · split at hh
        · simp at hh; rw [← hh.1]; simp
        · split at hh <;> simp at hh; rw [← hh.1]; simp
        · simp at hh
    | cas o nx =>
      cases ch <;> simp [aStep] at hh
      · split at hh
        · split at hh <;> simp at hh; rw [← hh.1]; simp
        · simp at hh; rw [← hh.1]; simp
      · rw [← hh.1]; simp
  have hd : ∀ {n d ch h r}, dStep (Op := Op α) s.heap n d ch = some (h, r) → h.nver = s.heap.nver := by
    intro n d ch h r hh
    cases d <;> cases ch <;> simp [dStep] at hh <;> (try split at hh) <;> (try simp at hh) <;>
      rw [← hh.1] <;> rfl
  have hu : ∀ n x, s.heap.nver x ≤ upd s.heap.nver n (s.heap.nver n + 1) x := by
    intro n x; simp only [upd_apply]; split <;> simp_all
  cases trans_of_tstep hs with
  | allocMore h | allocGot h | allocNull h | allocBad h =>
    exact ⟨Nat.le_refl _, Nat.le_refl _, aStep_ver h, (ha h).1, (ha h).2⟩
  | freeMore h | freeDone h =>
    refine ⟨Nat.le_refl _, Nat.le_refl _, Nat.le_of_eq (dStep_ver h).1.symm, Nat.le_of_eq (dStep_ver h).2.symm,
      fun x _ => by simp [hd h]⟩
  | nstore | pCas => exact ⟨Nat.le_refl _, Nat.le_refl _, Nat.le_refl _, Nat.le_refl _, fun x _ => hu _ x⟩
  | rsv => exact ⟨Nat.le_refl _, Nat.le_refl _, Nat.le_refl _, Nat.le_succ _, hm⟩
  | _ => simp [Heap.setData]

end Verif.Queue
