import Verif.Stack.Progress
import Verif.HeapLen

/-!
# Stack: a thread running alone, and why compare-exchanges fail (C22)
-/

namespace Verif.Stack
open Lin

variable {α : Type} {cfg : Cfg} {s : St α} {t : Nat} {n : Nat} {h : History (Op α) (Ret α)} {C : Conf α}

/-! ### Bounds -/

/-- The most steps a call can need when its thread is left alone, at whatever point of the call that happens. `N` is the number
of nodes allocated so far. -/
def soloBound (N : Nat) : Op α → Nat
  | .push _ _ => 17
  | .pushRange _ vs => 10 + 13 * vs.length + 5 * N
  | .pop _ => 10
  | .consumeAll _ _ => 8 * N + 5
  | .empty => 2
  | .reserve k => 2 + 4 * k

/-- The PCs a call goes through. -/
def Shape (o : Op α) : PC α → Prop
  | .alloc _ (.one _) _ | .constr _ (.one _) _ => ∃ b v, o = .push b v
  | .alloc _ (.range acc _ _ rest) _ | .constr _ (.range acc _ _ rest) _ | .rlink _ acc _ _ rest _ =>
      ∃ b vs, o = .pushRange b vs ∧ acc.length + 1 + rest.length ≤ vs.length
  | .lload _ _ r | .lset _ _ _ r | .lcas _ _ _ r =>
      (∃ b v, o = .push b v ∧ r.size ≤ 1) ∨ ∃ b vs, o = .pushRange b vs ∧ r.size ≤ vs.length
  | .pload _ | .ptest _ _ | .pcas _ _ _ | .papply _ _ | .pdestroy _ _ | .free (.pop _) _ _ => ∃ thr, o = .pop thr
  | .cload _ _ | .ctest _ _ _ | .ccas _ _ _ | .crev _ _ _ | .crevSet _ _ _ _ | .capply _ _ _ | .cread _ _ _
  | .cdestroy _ _ _ _ | .free (.cons _ _ _) _ _ => ∃ rev thr, o = .consumeAll rev thr
  | .eload => o = .empty
  | .rsv j => ∃ k, o = .reserve k ∧ j ≤ k
  | .free (.rsv j) _ _ => ∃ k, o = .reserve k ∧ j + 1 ≤ k
  | .undo _ | .undoD _ _ | .free (.undo _) _ _ => ∃ b vs, o = .pushRange b vs
  | .idle | .ret _ | .err => True

theorem shape_call {o : Op α} {p} (ho : start cfg o = some p) : Shape o p := by
  cases o with
  | pushRange b vs => cases vs <;> simp [start] at ho <;> obtain ⟨_, rfl⟩ := ho <;> simp [Shape]; omega
  | reserve k => simp [start] at ho; obtain ⟨_, rfl⟩ := ho; simp [Shape]
  | _ => simp [start] at ho; subst ho; simp [Shape]

theorem shape_keep {o : Op α} {p p' : PC α} {ch s'} (ht : Trans cfg t s p ch s' p' none) (hp : Shape o p) : Shape o p' := by
  cases ht with
  | @allocMore b k => cases k <;> exact hp
  | @allocGot b k => cases k <;> exact hp
  | @allocNull b k =>
    cases k with
    | one => simp [onNull, Shape]
    | range acc te v rest =>
      cases te with
      | none => simp [onNull, Shape]
      | some x => obtain ⟨b, vs, rfl, h⟩ := hp; exact .inr ⟨b, vs, rfl, by simp only [Ret.size]; omega⟩
  | @allocBad b k =>
    cases k with
    | one => simp [onThrow, Shape]
    | range acc te v rest =>
      cases te with
      | none => simp [onThrow, Shape]
      | some x => obtain ⟨b, vs, rfl, h⟩ := hp; exact ⟨b, vs, rfl⟩
  | constrErr => trivial
  | constrOne => obtain ⟨b, v, rfl⟩ := hp; exact .inl ⟨b, v, rfl, by simp [Ret.size]⟩
  | constrRange => exact hp
  | @constrThrow b k =>
    cases k with
    | one => simp [onThrow, Shape]
    | range acc te v rest =>
      cases te with
      | none => simp [onThrow, Shape]
      | some x => obtain ⟨b, vs, rfl, h⟩ := hp; exact ⟨b, vs, rfl⟩
  | @rlinkFirst b acc v rest n =>
    obtain ⟨b, vs, rfl, h⟩ := hp
    cases rest with
    | nil => exact .inr ⟨b, vs, rfl, by simp [Ret.size] at *; omega⟩
    | cons w rest => exact ⟨b, vs, rfl, by simp at *; omega⟩
  | @rlinkNext b acc top e v rest n =>
    obtain ⟨b, vs, rfl, h⟩ := hp
    cases rest with
    | nil => exact .inr ⟨b, vs, rfl, by simp [Ret.size] at *; omega⟩
    | cons w rest => exact ⟨b, vs, rfl, by simp at *; omega⟩
  | @freeMore k => cases k <;> exact hp
  | @freeDone k =>
    cases k with
    | pop => trivial
    | cons thr acc nx => cases nx <;> first | trivial | exact hp
    | rsv j => obtain ⟨k, rfl, h⟩ := hp; exact ⟨k, rfl, by omega⟩
    | undo nx => cases nx <;> first | trivial | exact hp
  | @ccasOk rev => cases rev <;> exact hp
  | @crevSetLast => exact hp
  | @crevSetMore => exact hp
  | rsv => obtain ⟨k, rfl, h⟩ := hp; exact ⟨k, rfl, h⟩
  | _ => first | exact hp | trivial

theorem shape_of_pending (hx : FreshExec cfg n h C) {i o} (hp : Pending h t i o) : Shape o (C.pc t) :=
  hx.pending_inv (H := h) (lawful cfg) Shape
    (fun h C t ch s' p' o _ hs _ _ => by
      have ht := trans_of_tstep hs
      cases ht with
      | call ho => exact shape_call ho)
    (fun h C t ch s' p' o _ hs _ _ hg => shape_keep (trans_of_tstep hs) hg)
    (List.prefix_refl _) hp

/-- `consume_all` before its compare-exchange. -/
def preConsume : PC α → Bool
  | .cload _ _ | .ctest _ _ _ | .ccas _ _ _ => true
  | _ => false

theorem preConsume_of_trans {p p' : PC α} {ch s' e} (ht : Trans cfg t s p ch s' p' e) (hc : ∀ o, ch ≠ .call o)
    (hp : preConsume p' = true) : preConsume p = true ∧ s' = s := by
  cases ht with
  | call _ => exact absurd rfl (hc _)
  | @allocNull b k => cases k with
    | one => simp [onNull, preConsume] at hp
    | range acc te => cases te <;> simp [onNull, preConsume] at hp
  | @allocBad b k => cases k with
    | one => simp [onThrow, preConsume] at hp
    | range acc te => cases te <;> simp [onThrow, preConsume] at hp
  | @constrThrow b k => cases k with
    | one => simp [onThrow, preConsume] at hp
    | range acc te => cases te <;> simp [onThrow, preConsume] at hp
  | @rlinkFirst b acc v rest n => cases rest <;> simp [onLinked, preConsume] at hp
  | @rlinkNext b acc top e v rest n => cases rest <;> simp [onLinked, preConsume] at hp
  | @freeDone k => cases k with
    | cons _ _ nx => cases nx <;> simp [onFreed, preConsume] at hp
    | undo nx => cases nx <;> simp [onFreed, preConsume] at hp
    | _ => simp [onFreed, preConsume] at hp
  | @ccasOk rev => cases rev <;> simp [preConsume] at hp
  | _ => first | exact ⟨rfl, rfl⟩ | simp [preConsume] at hp

/-- Steps a thread still needs when it is left alone. -/
noncomputable def left (s : St α) (p : PC α) : Nat := cost 0 8 s p + (if preConsume p then 8 * s.len else 0)

theorem left_step {g : G} {σ st} (hi : SI cfg s g σ) {p : PC α} (hl : Local cfg s g.F g.S (g.held t) st p)
    (hf : fresh cfg s p) {ch s' p' e} (ht : Trans cfg t s p ch s' p' e) (hsp : ch ≠ .spur) (hc : ∀ o, ch ≠ .call o) :
    left s' p' + 1 ≤ left s p := by
  have hpre := fun hp => preConsume_of_trans ht hc hp
  have h0 : callCosts (opCost 0 8) e.toList = 0 := by
    cases ht <;> first | rfl | exact absurd rfl (hc _)
  unfold left
  rcases own_cost (W := 0) (K := 8) (by omega) hi hl hf ht hsp with h1 | ⟨⟨rev, thr, o, rfl⟩, h2, h1⟩
  · unfold Pays at h1
    rw [h0] at h1
    cases hp' : preConsume p'
    · simp only [Bool.false_eq_true, if_false]; omega
    · obtain ⟨h2, rfl⟩ := hpre hp'
      rw [h2]; simp only [if_true]; omega
  · have h3 : (if preConsume p' = true then 8 * s'.len else 0) = 0 := by rw [h2]; split <;> rfl
    rw [h3]; simp only [preConsume, if_true]; omega

theorem held_le {g : G} {σ} (hi : SI cfg s g σ) (t : Nat) : (g.held t).length ≤ s.heap.nalloc := by
  have := length_le_of_subset (l' := List.range s.heap.nalloc) (hi.heap.hnodup t) (fun m hm => by
    have h1 := (hi.heap.hmem t m).2 hm
    have h2 := hi.heap.raw m
    have h3 : g.own m ≠ .raw := by rw [h1]; simp
    rw [List.mem_range]; exact Nat.lt_of_not_le fun h4 => h3 (h2.2 h4))
  simpa using this

theorem len_le {g : G} {σ} (hi : SI cfg s g σ) : s.len ≤ s.heap.nalloc := by
  have h0 : s.len = g.S.length := hi.chain.len
  have := length_le_of_subset (l' := List.range s.heap.nalloc) hi.nodup (fun m hm => by
    have h1 := (hi.mem m).2 hm
    have h2 := hi.heap.raw m
    have h3 : g.own m ≠ .raw := by rw [h1]; simp
    rw [List.mem_range]; exact Nat.lt_of_not_le fun h4 => h3 (h2.2 h4))
  rw [h0]; simpa using this

theorem left_le {g : G} {σ st} (hi : SI cfg s g σ) {p : PC α} (hl : Local cfg s g.F g.S (g.held t) st p) {o : Op α}
    (hsh : Shape o p) (hp : p ≠ .idle) (hr : ∀ r, p ≠ .ret r) : left s p ≤ soloBound s.heap.nalloc o := by
  have hh := held_le hi t
  have hlen := len_le hi
  have h1 := aCost_le 0 s.heap.pool
  have h2 := dCost_le 0 s.heap.pool
  have h3 := stale_le s.tos
  cases p with
  | idle => exact absurd rfl hp
  | ret r => exact absurd rfl (hr r)
  | err => exact hl.elim
  | alloc b k a =>
    have := h1 a
    cases k with
    | one v => obtain ⟨b, v, rfl⟩ := hsh; simp only [left, cost, kCost, soloBound, preConsume]; simp; omega
    | range acc te v rest =>
      obtain ⟨b, vs, rfl, hv⟩ := hsh; simp only [left, cost, kCost, soloBound, preConsume]; simp; omega
  | constr b k a =>
    cases k with
    | one v => obtain ⟨b, v, rfl⟩ := hsh; simp only [left, cost, kCost, soloBound, preConsume]; simp
    | range acc te v rest =>
      obtain ⟨b, vs, rfl, hv⟩ := hsh; simp only [left, cost, kCost, soloBound, preConsume]; simp; omega
  | rlink b acc te v rest m =>
    obtain ⟨b, vs, rfl, hv⟩ := hsh; simp only [left, cost, soloBound, preConsume]; simp; omega
  | lload top e r =>
    rcases hsh with ⟨b, v, rfl, hv⟩ | ⟨b, vs, rfl, hv⟩ <;> simp only [left, cost, soloBound, preConsume] <;> simp <;> omega
  | lset top e o r =>
    have := h3 o
    rcases hsh with ⟨b, v, rfl, hv⟩ | ⟨b, vs, rfl, hv⟩ <;> simp only [left, cost, soloBound, preConsume] <;> simp <;> omega
  | lcas top e o r =>
    have := h3 o
    rcases hsh with ⟨b, v, rfl, hv⟩ | ⟨b, vs, rfl, hv⟩ <;> simp only [left, cost, soloBound, preConsume] <;> simp <;> omega
  | pload thr => obtain ⟨thr, rfl⟩ := hsh; simp only [left, cost, soloBound, preConsume]; simp
  | ptest thr o => have := h3 o; obtain ⟨thr, rfl⟩ := hsh; simp only [left, cost, soloBound, preConsume]; simp; omega
  | pcas thr o nx => have := h3 o; obtain ⟨thr, rfl⟩ := hsh; simp only [left, cost, soloBound, preConsume]; simp; omega
  | papply thr m => obtain ⟨thr, rfl⟩ := hsh; simp only [left, cost, soloBound, preConsume]; simp
  | pdestroy m v => obtain ⟨thr, rfl⟩ := hsh; simp only [left, cost, soloBound, preConsume]; simp
  | free k m d =>
    obtain ⟨l', h4, _, _, h5⟩ := hl
    rw [h4] at hh; simp only [List.length_cons] at hh
    have := h2 d
    cases k with
    | pop v => obtain ⟨thr, rfl⟩ := hsh; simp only [left, cost, fCost, soloBound, preConsume]; simp; omega
    | cons thr acc nx =>
      obtain ⟨rev, thr, rfl⟩ := hsh; simp only [left, cost, fCost, soloBound, preConsume, h5.1.len]; simp; omega
    | rsv j => obtain ⟨k, rfl, hj⟩ := hsh; simp only [left, cost, fCost, soloBound, preConsume]; simp; omega
    | undo nx =>
      obtain ⟨b, vs, rfl⟩ := hsh; simp only [left, cost, fCost, soloBound, preConsume, h5.1.len]; simp; omega
  | cload rev thr => obtain ⟨rev, thr, rfl⟩ := hsh; simp only [left, cost, soloBound, preConsume]; simp; omega
  | ctest rev thr o =>
    have := h3 o; obtain ⟨rev, thr, rfl⟩ := hsh; simp only [left, cost, soloBound, preConsume]; simp; omega
  | ccas rev thr o =>
    have := h3 o; obtain ⟨rev, thr, rfl⟩ := hsh; simp only [left, cost, soloBound, preConsume]; simp; omega
  | crev thr m last =>
    obtain ⟨A, B, vals, h4, h5, h6, _⟩ := hl
    rw [h4] at hh; simp only [List.length_append, List.length_cons] at hh
    obtain ⟨rev, thr, rfl⟩ := hsh; simp only [left, cost, soloBound, preConsume, h5.len, h6.len]; simp; omega
  | crevSet thr m last nx =>
    obtain ⟨A, B, vals, h4, h5, h6, _⟩ := hl
    rw [h4] at hh; simp only [List.length_append, List.length_cons] at hh
    obtain ⟨rev, thr, rfl⟩ := hsh; simp only [left, cost, soloBound, preConsume, h5.len, h6.len]; simp; omega
  | capply thr m acc =>
    obtain ⟨rev, thr, rfl⟩ := hsh; simp only [left, cost, soloBound, preConsume, hl.1.len]; simp; omega
  | cread thr m acc =>
    obtain ⟨l', h4, h5, _⟩ := hl
    rw [h4] at hh h5; simp only [List.length_cons] at hh
    obtain ⟨rev, thr, rfl⟩ := hsh; simp only [left, cost, soloBound, preConsume, h5.2.len]; simp; omega
  | cdestroy thr m acc nx =>
    obtain ⟨l', h4, h5, _⟩ := hl
    rw [h4] at hh; simp only [List.length_cons] at hh
    obtain ⟨rev, thr, rfl⟩ := hsh; simp only [left, cost, soloBound, preConsume, h5.len]; simp; omega
  | eload => cases hsh; simp only [left, cost, soloBound, preConsume]; simp
  | rsv j => obtain ⟨k, rfl, hj⟩ := hsh; simp only [left, cost, soloBound, preConsume]; simp; omega
  | undo m => obtain ⟨b, vs, rfl⟩ := hsh; simp only [left, cost, soloBound, preConsume, hl.1.len]; simp; omega
  | undoD m nx =>
    obtain ⟨l', h4, h5, _⟩ := hl
    rw [h4] at hh; simp only [List.length_cons] at hh
    obtain ⟨b, vs, rfl⟩ := hsh; simp only [left, cost, soloBound, preConsume, h5.len]; simp; omega

/-- Steps within a call, no spurious failure. -/
def okSolo (cfg : Cfg) (s : St α) (p : PC α) (ch : Choice (Op α)) : Prop :=
  okFresh cfg s p ch ∧ ch ≠ .spur ∧ ∀ o, ch ≠ .call o

theorem alone_left {k s' p' h'} (hx : FreshExec cfg n h C)
    (ha : Alone (mach α cfg) (okSolo cfg) t k C.s (C.pc t) h' s' p') : k + left s' p' ≤ left C.s (C.pc t) := by
  generalize hs0 : C.s = s₀ at ha
  generalize hp0 : C.pc t = p₀ at ha
  induction ha generalizing h C with
  | nil => omega
  | @cons k s p ch s₁ p₁ e h₁ s₂ p₂ hs hok _ ih =>
    subst hs0 hp0
    obtain ⟨g, c, hi, _⟩ := hx.inv
    have h1 := left_step hi.si (hi.loc t) hok.1.1 (trans_of_tstep hs) hok.2.1 hok.2.2
    have h2 := ih (MSteps.step hx hs hok.1) rfl (by simp)
    omega

/-- **C22 (a thread running alone, bound).** Take any reachable configuration, other threads stopped anywhere, and a call in
progress. However the thread goes on alone -- it may even meet exceptions and racy reads -- it makes at most `soloBound` steps. -/
theorem stack_solo_bounded (hx : FreshExec cfg n h C) {i o} (hp : Pending h t i o) {k s' p' h'}
    (ha : Alone (mach α cfg) (okSolo cfg) t k C.s (C.pc t) h' s' p') : k ≤ soloBound C.s.heap.nalloc o := by
  have h1 := alone_left hx ha
  obtain ⟨g, c, hi, _⟩ := hx.inv
  have hb : 1 ≤ soloBound C.s.heap.nalloc o := by cases o <;> simp only [soloBound] <;> omega
  by_cases h2 : C.pc t = .idle
  · rw [h2] at h1; simp [left, cost, preConsume] at h1; omega
  · by_cases h3 : ∃ r, C.pc t = .ret r
    · obtain ⟨r, h3⟩ := h3
      rw [h3] at h1; simp [left, cost, preConsume] at h1; omega
    · have := left_le hi.si (hi.loc t) (shape_of_pending hx hp) h2 (fun r hr => h3 ⟨r, hr⟩)
      omega

/-! ### Completion -/

/-- The copies the thread has of `tos` and `pool_` have not wrapped (only those used to remove nodes). -/
def SnapFresh (cfg : Cfg) (s : St α) : PC α → Prop
  | .alloc _ _ (.test o) | .alloc _ _ (.cas o _) => young cfg s.heap.poolVer o
  | .ptest _ o | .pcas _ o _ | .ctest _ _ o | .ccas _ _ o => young cfg s.tosVer o
  | _ => True

theorem SnapFresh.fresh {p : PC α} (h : SnapFresh cfg s p) : fresh cfg s p := by
  cases p with
  | alloc b k a => cases a <;> first | exact h | trivial
  | _ => first | exact h | trivial

theorem SnapFresh.step {p p' : PC α} {s' e} (ht : Trans cfg t s p .go s' p' e) (hp : SnapFresh cfg s p) :
    SnapFresh cfg s' p' := by
  cases ht with
  | @allocMore b k a _ h a' ha =>
    cases a with
    | load => simp [aStep] at ha; obtain ⟨rfl, rfl⟩ := ha; exact young_new _ _ _ rfl
    | test o =>
      simp only [aStep] at ha
      split at ha
      · split at ha <;> simp at ha
      · simp at ha; obtain ⟨rfl, rfl⟩ := ha; exact hp
    | cas o nx =>
      simp only [aStep] at ha
      split at ha
      · split at ha <;> simp at ha
      · simp at ha; obtain ⟨rfl, rfl⟩ := ha; exact young_new _ _ _ rfl
  | @allocNull b k => cases k with
    | one => trivial
    | range acc te => cases te <;> trivial
  | @allocBad b k => cases k with
    | one => trivial
    | range acc te => cases te <;> trivial
  | @rlinkFirst b acc v rest n => cases rest <;> trivial
  | @rlinkNext b acc top e v rest n => cases rest <;> trivial
  | @freeDone k => cases k with
    | cons _ _ nx => cases nx <;> trivial
    | undo nx => cases nx <;> trivial
    | _ => trivial
  | @ccasOk rev => cases rev <;> trivial
  | pload => exact young_new _ _ _ rfl
  | cload => exact young_new _ _ _ rfl
  | pcasFail => exact young_new _ _ _ rfl
  | ccasFail => exact young_new _ _ _ rfl
  | _ => first | exact hp | trivial

/-- Nothing ever blocks. -/
theorem go_enabled {F S l st} {p : PC α} (hl : Local cfg s F S l st p) (hp : p ≠ .idle) :
    ∃ s' p' e, tstep cfg t s p .go = some (s', p', e) := by
  cases p with
  | idle => exact absurd rfl hp
  | err => exact hl.elim
  | alloc b k a =>
    have hA : ALocal cfg s.heap F a := by cases k <;> first | exact hl.2.2 | exact hl.2.2.1
    obtain ⟨h', r, h1⟩ := aStep_go (Op := Op α) b hA
    simp only [tstep, h1]
    cases r <;> exact ⟨_, _, _, rfl⟩
  | free k m d =>
    obtain ⟨h', r, h1⟩ := dStep_go (Op := Op α) s.heap m d
    simp only [tstep, h1]
    cases r <;> exact ⟨_, _, _, rfl⟩
  | constr b k m => simp only [tstep]; split <;> (try split) <;> exact ⟨_, _, _, rfl⟩
  | rlink b acc te v rest m => cases te <;> exact ⟨_, _, _, rfl⟩
  | ptest thr o =>
    cases h1 : o.v.ptr <;> simp only [tstep, h1] <;> exact ⟨_, _, _, rfl⟩
  | pcas thr o nx =>
    obtain ⟨_, _, _, m, h1, _⟩ := hl
    simp only [tstep, h1]; split <;> exact ⟨_, _, _, rfl⟩
  | lcas top e o r => simp only [tstep]; split <;> exact ⟨_, _, _, rfl⟩
  | papply thr m => simp only [tstep]; split <;> (try split) <;> exact ⟨_, _, _, rfl⟩
  | pdestroy m v => simp only [tstep]; split <;> exact ⟨_, _, _, rfl⟩
  | ctest rev thr o => simp only [tstep]; split <;> exact ⟨_, _, _, rfl⟩
  | ccas rev thr o =>
    obtain ⟨_, _, _, m, h1⟩ := hl
    simp only [tstep, h1]; split <;> exact ⟨_, _, _, rfl⟩
  | capply thr m acc => simp only [tstep]; split <;> (try split) <;> exact ⟨_, _, _, rfl⟩
  | cdestroy thr m acc nx => simp only [tstep]; split <;> exact ⟨_, _, _, rfl⟩
  | undoD m nx => simp only [tstep]; split <;> exact ⟨_, _, _, rfl⟩
  | rsv j => cases j <;> exact ⟨_, _, _, rfl⟩
  | _ => exact ⟨_, _, _, rfl⟩

/-- **C22 (a thread running alone, completion).** Take any reachable configuration, other threads stopped anywhere, and a call
in progress. The thread alone, without spurious failures and exceptions, completes the call in at most `soloBound` steps. (If the
thread has an old copy of a word, its tag must not have wrapped.) -/
theorem stack_solo_completes (hx : FreshExec cfg n h C) {i o} (hp : Pending h t i o) (hsn : SnapFresh cfg C.s (C.pc t)) :
    ∃ k s' r, k ≤ soloBound C.s.heap.nalloc o ∧
      Alone (mach α cfg) (fun s p ch => okFresh cfg s p ch ∧ ch = .go) t k C.s (C.pc t) [.res t r] s' .idle := by
  have hidle : C.pc t ≠ .idle := by
    intro hid
    exact hx.pending_inv (H := h) (lawful cfg) (fun _ p => p ≠ .idle)
      (fun h C t ch s' p' o _ hs _ _ => by
        have ht := trans_of_tstep hs
        cases ht with
        | call ho => exact (start_ne ho).1)
      (fun h C t ch s' p' o _ hs _ _ hg => by
        have ht := trans_of_tstep hs
        by_cases hpp : C.pc t = p'
        · rw [← hpp]; exact hg
        · exact not_idle_of_trans ht (by simp) hpp)
      (List.prefix_refl _) hp hid
  obtain ⟨k, s', r, hk, ha⟩ := Alone.terminates (m := mach α cfg) (ok := fun s p ch => okFresh cfg s p ch ∧ ch = .go) (t := t)
    (fun s p => (∃ h, FreshExec cfg n h ⟨s, upd C.pc t p⟩) ∧ SnapFresh cfg s p) left
    (fun s p hi hp => by
      obtain ⟨⟨h, hx⟩, hf⟩ := hi
      obtain ⟨g, c, hi, _⟩ := hx.inv
      have hl : Local cfg s g.F g.S (g.held t) (c.status t) p := by simpa using hi.loc t
      obtain ⟨s', p', e, hs⟩ := go_enabled (t := t) hl hp
      have hok : okFresh cfg s p .go := ⟨hf.fresh, by simp⟩
      have ht := trans_of_tstep hs
      have hd := left_step hi.si hl hf.fresh ht (by simp) (by simp)
      refine ⟨.go, s', p', e, hs, ⟨hok, rfl⟩, hd, ?_⟩
      cases e with
      | none =>
        refine .inr ⟨rfl, ?_, ⟨h, ?_⟩, hf.step ht⟩
        · by_cases hpp : p = p'
          · rw [← hpp]; exact hp
          · exact not_idle_of_trans ht (by simp) hpp
        · have := MSteps.step (t := t) (C := ⟨s, upd C.pc t p⟩) hx
            (by simp only [upd_self]; exact hs) (by simp only [upd_self]; exact hok)
          simpa [upd_upd] using this
      | some e =>
        rcases lawful cfg _ _ _ _ _ _ _ hs with ⟨h1, _⟩ | ⟨r, _, h2, h3⟩
        · exact absurd h1 hp
        · cases h3; exact .inl ⟨r, h2, rfl⟩)
    ⟨⟨h, by simpa [upd_same] using hx⟩, hsn⟩ hidle
  exact ⟨k, s', r, stack_solo_bounded hx hp (ha.mono fun s p ch hc => ⟨hc.1, by simp [hc.2], by simp [hc.2]⟩), ha⟩

/-! ### Failing compare-exchanges -/

/-- The expected value of the compare-exchange on `tos` the thread is about to make. -/
def casTos : PC α → Option Tagged
  | .lcas _ _ o _ | .pcas _ o _ | .ccas _ _ o => some o.v
  | _ => none

/-- The expected value of the compare-exchange on `pool_` the thread is about to make. -/
def casPool : PC α → Option Tagged
  | .alloc _ _ (.cas o _) | .free _ _ (.cas o) => some o.v
  | _ => none

/-- The copy of `tos` a thread has. -/
def copyTos : PC α → Option Tagged
  | .lset _ _ o _ | .lcas _ _ o _ | .ptest _ o | .pcas _ o _ | .ctest _ _ o | .ccas _ _ o => some o.v
  | _ => none

/-- The copy of `pool_` a thread has. -/
def copyPool : PC α → Option Tagged
  | .alloc _ _ (.test o) | .alloc _ _ (.cas o _) | .free _ _ (.set o) | .free _ _ (.cas o) => some o.v
  | _ => none

theorem casTos_copy {p : PC α} {v} (h : casTos p = some v) : copyTos p = some v := by
  cases p <;> first | exact h | cases h

theorem casPool_copy {p : PC α} {v} (h : casPool p = some v) : copyPool p = some v := by
  cases p with
  | alloc b k a => cases a <;> first | exact h | cases h
  | free k m d => cases d <;> first | exact h | cases h
  | _ => cases h

theorem tos_changes {p p' : PC α} {ch s' e} (ht : Trans cfg t s p ch s' p' e) (hne : s'.tos ≠ s.tos) :
    casTos p = some s.tos := by
  cases ht <;> first | exact absurd rfl hne | (simp only [casTos, Option.some.injEq]; exact Eq.symm (by assumption))

theorem pool_changes {p p' : PC α} {ch s' e} (ht : Trans cfg t s p ch s' p' e) (hne : s'.heap.pool ≠ s.heap.pool) :
    casPool p = some s.heap.pool := by
  cases ht with
  | allocMore ha => obtain ⟨o, nx, rfl, h1⟩ := aStep_pool ha hne; exact congrArg some h1
  | allocGot ha => obtain ⟨o, nx, rfl, h1⟩ := aStep_pool ha hne; exact congrArg some h1
  | allocNull ha => obtain ⟨o, nx, rfl, h1⟩ := aStep_pool ha hne; exact congrArg some h1
  | allocBad ha => obtain ⟨o, nx, rfl, h1⟩ := aStep_pool ha hne; exact congrArg some h1
  | freeMore ha => obtain ⟨o, rfl, h1⟩ := dStep_pool ha hne; exact congrArg some h1
  | freeDone ha => obtain ⟨o, rfl, h1⟩ := dStep_pool ha hne; exact congrArg some h1
  | _ => exact absurd rfl hne

variable {ok : St α → PC α → Choice (Op α) → Prop}

/-- **C22 (failures of compare-exchanges on `tos`).** If thread `t` is about to compare `tos` with `v` and `tos` is different,
then some other thread `u` made a successful compare-exchange of `tos`, from `v` to another value, after `t` copied `v`. (No
assumption on tags.) -/
theorem stack_tos_cas_fails (hx : MSteps (mach α cfg) ok (Conf.initial n) h C) {v : Tagged} (hv : casTos (C.pc t) = some v)
    (hne : C.s.tos ≠ v) :
    ∃ h₁ C₁ u ch s' p' e h₂, u ≠ t ∧ MSteps (mach α cfg) ok (Conf.initial n) h₁ C₁ ∧ copyTos (C₁.pc t) = some v ∧
      C₁.s.tos = v ∧ casTos (C₁.pc u) = some v ∧ tstep cfg u C₁.s (C₁.pc u) ch = some (s', p', e) ∧ s'.tos ≠ v ∧
      MSteps (mach α cfg) ok ⟨s', upd C₁.pc u p'⟩ h₂ C ∧ h = h₁ ++ e.toList ++ h₂ := by
  obtain ⟨h₁, C₁, u, ch, s', p', e, h₂, h1, h2, h3, h4, h5, h6, h7, h8, h9⟩ :=
    hx.changed_by_other (fun s => s.tos) copyTos t rfl (fun s p ch s' p' e v hs hv => by
      have ht := trans_of_tstep hs
      cases ht with
      | call ho => exact absurd hv (by
          rename_i o
          cases o with
          | pushRange b vs => cases vs <;> simp [start] at ho <;> obtain ⟨_, rfl⟩ := ho <;> simp [copyTos]
          | reserve k => simp [start] at ho; obtain ⟨_, rfl⟩ := ho; simp [copyTos]
          | _ => simp [start] at ho; subst ho; simp [copyTos])
      | @allocNull b k => cases k with
        | one => simp [onNull, copyTos] at hv
        | range acc te => cases te <;> simp [onNull, copyTos] at hv
      | @allocBad b k => cases k with
        | one => simp [onThrow, copyTos] at hv
        | range acc te => cases te <;> simp [onThrow, copyTos] at hv
      | @constrThrow b k => cases k with
        | one => simp [onThrow, copyTos] at hv
        | range acc te => cases te <;> simp [onThrow, copyTos] at hv
      | @rlinkFirst b acc v rest n => cases rest <;> simp [onLinked, copyTos] at hv
      | @rlinkNext b acc top e v rest n => cases rest <;> simp [onLinked, copyTos] at hv
      | @freeDone k => cases k with
        | cons _ _ nx => cases nx <;> simp [onFreed, copyTos] at hv
        | undo nx => cases nx <;> simp [onFreed, copyTos] at hv
        | _ => simp [onFreed, copyTos] at hv
      | @ccasOk rev => cases rev <;> simp [copyTos] at hv
      | _ => first
        | exact .inr ⟨hv, rfl⟩
        | (simp only [copyTos, Option.some.injEq] at hv; exact .inl hv)
        | simp [copyTos] at hv) (casTos_copy hv) hne
  have h10 := tos_changes (trans_of_tstep h5) (by rw [h4]; exact h7)
  exact ⟨h₁, C₁, u, ch, s', p', e, h₂, h1, h2, h3, h4, by rw [h10, h4], h5, h7, h8, h9⟩

/-- **C22 (failures of compare-exchanges on the freelist).** The same for `pool_`. -/
theorem stack_pool_cas_fails (hx : MSteps (mach α cfg) ok (Conf.initial n) h C) {v : Tagged}
    (hv : casPool (C.pc t) = some v) (hne : C.s.heap.pool ≠ v) :
    ∃ h₁ C₁ u ch s' p' e h₂, u ≠ t ∧ MSteps (mach α cfg) ok (Conf.initial n) h₁ C₁ ∧ copyPool (C₁.pc t) = some v ∧
      C₁.s.heap.pool = v ∧ casPool (C₁.pc u) = some v ∧ tstep cfg u C₁.s (C₁.pc u) ch = some (s', p', e) ∧
      s'.heap.pool ≠ v ∧ MSteps (mach α cfg) ok ⟨s', upd C₁.pc u p'⟩ h₂ C ∧ h = h₁ ++ e.toList ++ h₂ := by
  obtain ⟨h₁, C₁, u, ch, s', p', e, h₂, h1, h2, h3, h4, h5, h6, h7, h8, h9⟩ :=
    hx.changed_by_other (fun s => s.heap.pool) copyPool t rfl (fun s p ch s' p' e v hs hv => by
      have ht := trans_of_tstep hs
      cases ht with
      | call ho => exact absurd hv (by
          rename_i o
          cases o with
          | pushRange b vs => cases vs <;> simp [start] at ho <;> obtain ⟨_, rfl⟩ := ho <;> simp [copyPool]
          | reserve k => simp [start] at ho; obtain ⟨_, rfl⟩ := ho; simp [copyPool]
          | _ => simp [start] at ho; subst ho; simp [copyPool])
      | @allocMore b k a _ h a' ha =>
        obtain ⟨rfl, rfl | ⟨o, nx, rfl, rfl⟩⟩ := aStep_copy ha
        · simp only [copyPool, Option.some.injEq] at hv; exact .inl hv
        · exact .inr ⟨hv, rfl⟩
      | @freeMore k m d _ h d' hd =>
        obtain ⟨h1, rfl | ⟨o, rfl, rfl⟩⟩ := dStep_copy hd
        · simp only [copyPool, Option.some.injEq] at hv; exact .inl (h1.trans hv)
        · exact .inr ⟨hv, h1⟩
      | @allocNull b k => cases k with
        | one => simp [onNull, copyPool] at hv
        | range acc te => cases te <;> simp [onNull, copyPool] at hv
      | @allocBad b k => cases k with
        | one => simp [onThrow, copyPool] at hv
        | range acc te => cases te <;> simp [onThrow, copyPool] at hv
      | @constrThrow b k => cases k with
        | one => simp [onThrow, copyPool] at hv
        | range acc te => cases te <;> simp [onThrow, copyPool] at hv
      | @rlinkFirst b acc v rest n => cases rest <;> simp [onLinked, copyPool] at hv
      | @rlinkNext b acc top e v rest n => cases rest <;> simp [onLinked, copyPool] at hv
      | @freeDone k => cases k with
        | cons _ _ nx => cases nx <;> simp [onFreed, copyPool] at hv
        | undo nx => cases nx <;> simp [onFreed, copyPool] at hv
        | _ => simp [onFreed, copyPool] at hv
      | @ccasOk rev => cases rev <;> simp [copyPool] at hv
      | _ => simp [copyPool] at hv) (casPool_copy hv) hne
  have h10 := pool_changes (trans_of_tstep h5) (by rw [h4]; exact h7)
  exact ⟨h₁, C₁, u, ch, s', p', e, h₂, h1, h2, h3, h4, by rw [h10, h4], h5, h7, h8, h9⟩

end Verif.Stack
