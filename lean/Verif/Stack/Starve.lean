import Verif.Starve
import Verif.Stack.Solo

/-!
# Stack: single calls may be delayed for ever (C53)
-/

namespace Verif.Stack
open Lin

variable {α : Type} {cfg : Cfg} {s : St α} {t u : Nat} {n : Nat} {h : History (Op α) (Ret α)} {C : Conf α}

/-- Nothing goes wrong in the step: no compare-exchange fails spuriously, no read races, nothing throws, no tag has wrapped, no
empty range is pushed. -/
def okPlain (cfg : Cfg) (s : St α) (p : PC α) (ch : Choice (Op α)) : Prop :=
  okFresh cfg s p ch ∧ (ch = .go ∨ ∃ o, ch = .call o)

/-- The state after a `pop` that removes node `m`. -/
def afterPop (cfg : Cfg) (s : St α) (m : Nat) : St α :=
  { heap := { (s.heap.setData m none).setNextPtr m s.heap.pool.ptr with pool := ⟨some m, s.heap.pool.tag⟩ },
    tos := ⟨(s.heap.next m).ptr, cfg.nextTag s.tos.tag⟩, tosVer := s.tosVer + 1 }

/-- The state after a `push` that uses node `m`. -/
def afterPush (cfg : Cfg) (s : St α) (m : Nat) (v : α) : St α :=
  { heap := { (s.heap.setData m (some v)).setNextPtr m s.tos.ptr with
      pool := ⟨(s.heap.next m).ptr, cfg.nextTag s.heap.pool.tag⟩, poolVer := s.heap.poolVer + 1 },
    tos := ⟨some m, s.tos.tag⟩, tosVer := s.tosVer }

theorem plain_go {p : PC α} (h : fresh cfg s p) : okPlain cfg s p .go := ⟨⟨h, by simp⟩, .inl rfl⟩

section
variable {p p' p'' : PC α} {s' s'' : St α} {k : Nat}

theorem al_go (hs : tstep cfg u s p .go = some (s', p', none)) (hf : fresh cfg s p)
    (hx : Alone (mach α cfg) (okPlain cfg) u k s' p' h s'' p'') : Alone (mach α cfg) (okPlain cfg) u (k + 1) s p h s'' p'' :=
  Alone.cons (m := mach α cfg) (e := none) hs (plain_go hf) hx

theorem al_call (o : Op α) (hs : start cfg o = some p') (ho : ∀ b, o ≠ .pushRange b [])
    (hx : Alone (mach α cfg) (okPlain cfg) u k s p' h s'' p'') :
    Alone (mach α cfg) (okPlain cfg) u (k + 1) s .idle (.inv u o :: h) s'' p'' :=
  Alone.cons (m := mach α cfg) (ch := .call o) (e := some (.inv u o)) (by simp [mach, tstep, hs])
    ⟨⟨trivial, fun b hb => ho b (Choice.call.inj hb)⟩, .inr ⟨_, rfl⟩⟩ hx

theorem al_ret (r : Ret α) : Alone (mach α cfg) (okPlain cfg) u 1 s (.ret r) [.res u r] s .idle :=
  Alone.one (m := mach α cfg) (ch := .go) (e := some (.res u r)) rfl (plain_go trivial)

end

/-- A `pop` without interference. -/
theorem pop_plain {m v} (hm : s.tos.ptr = some m) (hv : s.heap.data m = some v) :
    Alone (mach α cfg) (okPlain cfg) u 10 s .idle [.inv u (.pop false), .res u (.popped (some v))] (afterPop cfg s m) .idle := by
  refine al_call (.pop false) rfl (by simp) ?_
  refine al_go rfl trivial ?_
  refine al_go (s' := s) (p' := .pcas false s.tosSnap (s.heap.next m).ptr) (by simp [tstep, St.tosSnap, hm]) trivial ?_
  refine al_go (s' := { s with tos := ⟨(s.heap.next m).ptr, cfg.nextTag s.tos.tag⟩, tosVer := s.tosVer + 1 }) (p' := .papply false m)
    (by simp [tstep, St.tosSnap, hm]) (by simp only [fresh, St.tosSnap]; omega) ?_
  refine al_go (p' := .pdestroy m v) (by simp [tstep, hv]; rfl) trivial ?_
  refine al_go (p' := .free (.pop v) m .load) (by simp [tstep, hv]; rfl) trivial ?_
  refine al_go rfl trivial ?_
  refine al_go rfl trivial ?_
  refine al_go (s' := afterPop cfg s m) (p' := .ret (.popped (some v)))
    (by simp [tstep, dStep, Heap.poolSnap, Heap.setNextPtr, Heap.setData, afterPop, onFreed]) trivial ?_
  exact al_ret _

/-- The first part of a `push`, when the freelist has a node. -/
theorem alloc_plain {m} (b : Bool) (v : α) (hm : s.heap.pool.ptr = some m) (hv : s.heap.data m = none) :
    Alone (mach α cfg) (okPlain cfg) u 5 s .idle [.inv u (.push b v)]
      { s with heap := { s.heap.setData m (some v) with
          pool := ⟨(s.heap.next m).ptr, cfg.nextTag s.heap.pool.tag⟩, poolVer := s.heap.poolVer + 1 } }
      (.lload m m (.pushed true)) := by
  refine al_call (.push b v) rfl (by simp) ?_
  refine al_go rfl trivial ?_
  refine al_go (s' := s) (p' := .alloc b (.one v) (.cas s.heap.poolSnap (s.heap.next m).ptr))
    (by simp [tstep, aStep, Heap.poolSnap, hm]) trivial ?_
  refine al_go (s' := { s with heap := { s.heap with
      pool := ⟨(s.heap.next m).ptr, cfg.nextTag s.heap.pool.tag⟩, poolVer := s.heap.poolVer + 1 } })
    (p' := .constr b (.one v) m) (by simp [tstep, aStep, Heap.poolSnap, hm])
    (by simp only [fresh, aFresh, Heap.poolSnap]; omega) ?_
  refine al_go (by simp [tstep, hv]; exact ⟨rfl, rfl⟩) trivial ?_
  exact .nil _ _

/-- The first part of a `push`, when the freelist is empty and may grow. -/
theorem malloc_plain (v : α) (hc : cfg.fixed = false) (hm : s.heap.pool.ptr = none) :
    Alone (mach α cfg) (okPlain cfg) u 4 s .idle [.inv u (.push false v)]
      { s with heap := s.heap.malloc.setData s.heap.nalloc (some v) } (.lload s.heap.nalloc s.heap.nalloc (.pushed true)) := by
  refine al_call (.push false v) rfl (by simp) ?_
  refine al_go rfl trivial ?_
  refine al_go (s' := { s with heap := s.heap.malloc }) (p' := .constr false (.one v) s.heap.nalloc)
    (by simp [tstep, aStep, Heap.poolSnap, hm, hc]) trivial ?_
  refine al_go (by simp [tstep, Heap.malloc]; exact ⟨rfl, rfl⟩) trivial ?_
  exact .nil _ _

/-- A `push` without interference, when the freelist has a node. -/
theorem push_plain {m} (v : α) (hm : s.heap.pool.ptr = some m) (hv : s.heap.data m = none) :
    Alone (mach α cfg) (okPlain cfg) u 9 s .idle [.inv u (.push false v), .res u (.pushed true)] (afterPush cfg s m v) .idle := by
  refine (alloc_plain false v hm hv).trans (k' := 4) (h' := [.res u (.pushed true)]) ?_
  refine al_go rfl trivial ?_
  refine al_go rfl trivial ?_
  refine al_go (s' := afterPush cfg s m v) (p' := .ret (.pushed true))
    (by simp [tstep, St.tosSnap, Heap.setNextPtr, Heap.setData, afterPush]) trivial ?_
  exact al_ret _

/-- Thread `u` pops an element and pushes it back. -/
theorem swap_plain {m v} (hm : s.tos.ptr = some m) (hv : s.heap.data m = some v) :
    ∃ s', Alone (mach α cfg) (okPlain cfg) u 19 s .idle
        [.inv u (.pop false), .res u (.popped (some v)), .inv u (.push false v), .res u (.pushed true)] s' .idle ∧
      s'.tos = ⟨some m, cfg.nextTag s.tos.tag⟩ ∧ s'.tosVer = s.tosVer + 1 ∧ s'.heap.data m = some v ∧
      s'.heap.pool = ⟨s.heap.pool.ptr, cfg.nextTag s.heap.pool.tag⟩ ∧ s'.heap.poolVer = s.heap.poolVer + 1 := by
  refine ⟨afterPush cfg (afterPop cfg s m) m v, (pop_plain hm hv).trans (push_plain v (by simp [afterPop]) ?_), ?_, ?_, ?_, ?_, ?_⟩
  · simp [afterPop, Heap.setNextPtr, Heap.setData]
  · simp [afterPop, afterPush]
  · simp [afterPop, afterPush]
  · simp [afterPush, Heap.setNextPtr, Heap.setData]
  · simp [afterPop, afterPush, Heap.setNextPtr]
  · simp [afterPop, afterPush, Heap.setNextPtr, Heap.setData]

/-- Only thread `u` calls and returns. -/
abbrev By (u : Nat) (h : History (Op α) (Ret α)) : Prop := ∀ e ∈ h, e.tid = u

theorem top_data (hx : FreshExec cfg n h C) {m} (hm : C.s.tos.ptr = some m) : ∃ v, C.s.heap.data m = some v := by
  obtain ⟨g, c, hi, -⟩ := hx.inv
  have hc := hi.si.chain
  have hd := hi.si.data
  rw [hm] at hc
  revert hc hd
  cases g.S with
  | nil => intro hc; simp [Chain] at hc
  | cons a l =>
    intro hc hd
    have ha : m = a := by simp [Chain] at hc; exact hc.1
    subst ha
    cases hσ : c.st with
    | nil => rw [hσ] at hd; simp at hd
    | cons v vs => rw [hσ] at hd; simp at hd; exact ⟨v, hd.1⟩

theorem pool_data (hx : FreshExec cfg n h C) {m} (hm : C.s.heap.pool.ptr = some m) : C.s.heap.data m = none := by
  obtain ⟨g, c, hi, -⟩ := hx.inv
  have hc := hi.si.heap.chain
  rw [hm] at hc
  cases hF : g.F with
  | nil => rw [hF] at hc; simp [Chain] at hc
  | cons a l =>
    have ha : m = a := by rw [hF] at hc; simp [Chain] at hc; exact hc.1
    exact hi.si.heap.fdata m (.inl ((hi.si.heap.fmem m).2 (by rw [hF, ha]; simp)))

theorem nalloc_data (hx : FreshExec cfg n h C) : C.s.heap.data C.s.heap.nalloc = none := by
  obtain ⟨g, c, hi, -⟩ := hx.inv
  exact hi.si.heap.fdata _ (.inr ((hi.si.heap.raw _).2 (Nat.le_refl _)))

/-- One round: thread `t` goes from the loop head `p` to its compare-exchange `q`, thread `u` exchanges the top element by
itself, the compare-exchange of `t` fails. -/
theorem round {p q : St α → PC α} {x : Option Nat} (htu : u ≠ t) (f : St α → St α)
    (h1 : ∀ s : St α, s.tos.ptr ≠ none → s.heap.pool.ptr = x → tstep cfg t s (p s) .go = some (f s, q s, none))
    (h2 : ∀ s : St α, (f s).tos = s.tos ∧ (f s).tosVer = s.tosVer ∧ (f s).heap.data = s.heap.data ∧
      (f s).heap.pool = s.heap.pool ∧ (f s).heap.poolVer = s.heap.poolVer)
    (h3 : ∀ s s' : St α, s'.tos = ⟨s.tos.ptr, cfg.nextTag s.tos.tag⟩ → s'.tosVer = s.tosVer + 1 →
      s'.heap.pool = ⟨s.heap.pool.ptr, cfg.nextTag s.heap.pool.tag⟩ → s'.heap.poolVer = s.heap.poolVer + 1 →
      tstep cfg t s' (q s) .go = some (s', p s', none) ∧ fresh cfg s' (q s))
    (h4 : ∀ s, fresh cfg s (p s)) (N : Nat) {C : Conf α}
    (hC : C.pc u = .idle ∧ C.pc t = p C.s ∧ C.s.heap.pool.ptr = x ∧ ∃ m v, C.s.tos.ptr = some m ∧ C.s.heap.data m = some v) :
    ∃ h' C' k, N ≤ k ∧ Watched (mach α cfg) (okPlain cfg) t C h' C' k ∧ By u h' := by
  obtain ⟨h', C', k, hk, hw, hJ, hy⟩ := Watched.rounds (m := mach α cfg) (ok := okPlain cfg) (t := t) (u := u)
    (fun C => C.pc u = .idle ∧ C.pc t = p C.s ∧ C.s.heap.pool.ptr = x ∧ ∃ m v, C.s.tos.ptr = some m ∧ C.s.heap.data m = some v) (fun C hJ => by
      obtain ⟨hu, ht, hp, m, v, hm, hv⟩ := hJ
      obtain ⟨f1, f2, f3, f4, f5⟩ := h2 C.s
      obtain ⟨s', hs', ht1, ht2, ht3, ht4, ht5⟩ := swap_plain (cfg := cfg) (u := u) (s := f C.s) (m := m) (v := v) (by rw [f1, hm]) (by rw [f3, hv])
      have w1 : Watched (mach α cfg) (okPlain cfg) t C [] ⟨f C.s, upd C.pc t (q C.s)⟩ 1 :=
        .own (ch := .go) (e := none) .refl (by rw [ht]; exact h1 C.s (by simp [hm]) hp) (by rw [ht]; exact plain_go (h4 _))
      have w2 := w1.trans (.by_other htu hs' rfl (by show upd C.pc t (q C.s) u = _; rw [upd_ne _ _ _ htu, hu]))
      have h5 := h3 C.s s' (by rw [ht1, f1, hm]) (by rw [ht2, f2]) (by rw [ht4, f4]) (by rw [ht5, f5])
      have w3 := w2.trans (.own (ch := .go) (e := none) (s' := s') (p' := p s') .refl
        (by show tstep cfg t s' (upd (upd C.pc t (q C.s)) u .idle t) .go = _
            rw [upd_ne _ _ _ htu.symm, upd_self]; exact h5.1)
        (by show okPlain cfg s' (upd (upd C.pc t (q C.s)) u .idle t) .go
            rw [upd_ne _ _ _ htu.symm, upd_self]; exact plain_go h5.2))
      refine ⟨_, _, _, by omega, w3, ⟨?_, ?_, ?_, m, v, ?_, ht3⟩, ?_⟩
      · simp [upd_ne _ _ _ htu]
      · simp
      · simp [ht4, f4, hp]
      · simp [ht1]
      · simp [Event.tid]) N hC
  exact ⟨h', C', k, hk, hw, hy⟩

/-- The calls that can be delayed, and when. -/
def Delayable (cfg : Cfg) (s : St α) : Op α → Prop
  | .push b _ => s.heap.pool.ptr ≠ none ∨ b = false ∧ cfg.fixed = false
  | .pushRange _ vs => vs ≠ [] ∧ s.heap.pool.ptr ≠ none ∧ cfg.fixed = false
  | .reserve k => k ≠ 0 ∧ cfg.fixed = false
  | .pop _ | .consumeAll _ _ => True
  | .empty => False

/-- **C53**: no single call of the stack is certain to finish. From every reachable state of a non-empty stack in which threads
`t ≠ u` are between calls, and for every number `N`, there is a continuation in which `t` calls any function but `empty` and
makes `N` steps without returning, although only `t` and `u` move, `u` merely pops the top element and pushes it back again
and again, no compare-exchange fails spuriously, nothing throws and no tag wraps. -/
theorem stack_not_wait_free (hM : cfg.M ≠ 1) (hx : FreshExec cfg n h C) (htu : u ≠ t) (ht : C.pc t = .idle) (hu : C.pc u = .idle)
    (hne : C.s.tos.ptr ≠ none) (o : Op α) (ho : Delayable cfg C.s o) (N : Nat) :
    ∃ h' C' k, N ≤ k ∧ Watched (mach α cfg) (okPlain cfg) t C (.inv t o :: h') C' k ∧ By u h' := by
  obtain ⟨m, hm⟩ := Option.ne_none_iff_exists'.1 hne
  obtain ⟨v, hv⟩ := top_data hx hm
  have fin : ∀ {s' p₀ j}, Alone (mach α cfg) (okPlain cfg) t j C.s .idle [.inv t o] s' p₀ →
      (∃ h' C' k, N ≤ k ∧ Watched (mach α cfg) (okPlain cfg) t ⟨s', upd C.pc t p₀⟩ h' C' k ∧ By u h') →
      ∃ h' C' k, N ≤ k ∧ Watched (mach α cfg) (okPlain cfg) t C (.inv t o :: h') C' k ∧ By u h' := by
    intro s' p₀ j h1 ⟨h', C', k, h2, h3, h4⟩
    exact ⟨h', C', j + k, by omega, (Watched.alone h1 rfl ht).trans h3, h4⟩
  have hcas : ∀ {x y : Tagged}, y = ⟨x.ptr, cfg.nextTag x.tag⟩ → y ≠ x := by
    intro x y h1 h2
    rw [h1] at h2
    exact cfg.nextTag_ne hM x.tag (congrArg Tagged.tag h2)
  have hpush : ∀ {s' : St α} {a : Nat}, s'.tos.ptr = some m → s'.heap.data m = some v →
      ∃ h' C' k, N ≤ k ∧ Watched (mach α cfg) (okPlain cfg) t ⟨s', upd C.pc t (.lset a a s'.tosSnap (.pushed true))⟩ h' C' k ∧ By u h' := by
    intro s' a h1 h2
    refine round (cfg := cfg) (p := fun s => .lset a a s.tosSnap (.pushed true)) (q := fun s => .lcas a a s.tosSnap (.pushed true)) htu
      (fun s => { s with heap := s.heap.setNextPtr a s.tos.ptr }) (fun s _ _ => rfl) (fun s => ⟨rfl, rfl, rfl, rfl, rfl⟩) ?_
      (fun _ => trivial) N ⟨by simp [htu, hu], by simp, rfl, m, v, h1, h2⟩
    intro s s' h1 h2 _ _
    exact ⟨by simp [tstep, St.tosSnap, hcas h1], trivial⟩
  cases o with
  | push b w =>
    rcases Option.eq_none_or_eq_some C.s.heap.pool.ptr with hp | ⟨a, ha⟩
    · obtain ⟨rfl, hc⟩ : b = false ∧ cfg.fixed = false := by simpa [Delayable, hp] using ho
      refine fin ((malloc_plain w hc hp).trans (al_go rfl trivial (.nil _ _))) (hpush hm ?_)
      have : m ≠ C.s.heap.nalloc := fun h => by rw [h, nalloc_data hx] at hv; simp at hv
      simp [Heap.setData, Heap.malloc, this, hv]
    · refine fin ((alloc_plain b w ha (pool_data hx ha)).trans (al_go rfl trivial (.nil _ _))) (hpush hm ?_)
      have : m ≠ a := fun h => by rw [h, pool_data hx ha] at hv; simp at hv
      simp [Heap.setData, this, hv]
  | pushRange b vs =>
    obtain ⟨h1, h2, hc⟩ := ho
    obtain ⟨a, ha⟩ := Option.ne_none_iff_exists'.1 h2
    cases vs with
    | nil => exact absurd rfl h1
    | cons w rest =>
      refine fin (al_call (p' := .alloc b (.range [] none w rest) .load) (.pushRange b (w :: rest)) (by simp [start, hc]) (by simp) (al_go rfl trivial (.nil _ _))) ?_
      refine round (cfg := cfg) (p := fun s => .alloc b (.range [] none w rest) (.test s.heap.poolSnap))
        (q := fun s => .alloc b (.range [] none w rest) (.cas s.heap.poolSnap (s.heap.next a).ptr)) (x := some a) htu
        (fun s => s) ?_ (fun s => ⟨rfl, rfl, rfl, rfl, rfl⟩) ?_ (fun _ => trivial) N ⟨by simp [htu, hu], by simp, ha, m, v, hm, hv⟩
      · intro s _ hs
        simp [tstep, aStep, Heap.poolSnap, hs]
      · intro s s' _ _ h3 h4
        exact ⟨by simp [tstep, aStep, Heap.poolSnap, hcas h3], by simp only [fresh, aFresh, Heap.poolSnap, h4]; omega⟩
  | pop thr =>
    refine fin (al_call (.pop thr) rfl (by simp) (al_go rfl trivial (.nil _ _))) ?_
    refine round (cfg := cfg) (p := fun s => .ptest thr s.tosSnap)
      (q := fun s => .pcas thr s.tosSnap ((s.tos.ptr.map fun m => (s.heap.next m).ptr).getD none)) htu
      (fun s => s) ?_ (fun s => ⟨rfl, rfl, rfl, rfl, rfl⟩) ?_ (fun _ => trivial) N ⟨by simp [htu, hu], by simp, rfl, m, v, hm, hv⟩
    · intro s hs _
      obtain ⟨a, ha⟩ := Option.ne_none_iff_exists'.1 hs
      simp [tstep, St.tosSnap, ha]
    · intro s s' h1 h2 _ _
      exact ⟨by simp [tstep, St.tosSnap, hcas h1], by simp only [fresh, St.tosSnap, h2]; omega⟩
  | consumeAll rev thr =>
    refine fin (al_call (.consumeAll rev thr) rfl (by simp) (al_go rfl trivial (.nil _ _))) ?_
    refine round (cfg := cfg) (p := fun s => .ctest rev thr s.tosSnap) (q := fun s => .ccas rev thr s.tosSnap) htu
      (fun s => s) ?_ (fun s => ⟨rfl, rfl, rfl, rfl, rfl⟩) ?_ (fun _ => trivial) N ⟨by simp [htu, hu], by simp, rfl, m, v, hm, hv⟩
    · intro s hs _
      obtain ⟨a, ha⟩ := Option.ne_none_iff_exists'.1 hs
      simp [tstep, St.tosSnap, ha]
    · intro s s' h1 h2 _ _
      exact ⟨by simp [tstep, St.tosSnap, hcas h1], by simp only [fresh, St.tosSnap, h2]; omega⟩
  | reserve k =>
    obtain ⟨h1, hc⟩ := ho
    obtain ⟨j, rfl⟩ := Nat.exists_eq_succ_of_ne_zero h1
    refine fin (al_call (p' := .rsv (j + 1)) (.reserve (j + 1)) (by simp [start, hc]) (by simp) (al_go rfl trivial (al_go rfl trivial (.nil _ _)))) ?_
    refine round (cfg := cfg) (p := fun s => .free (.rsv j) C.s.heap.nalloc (.set s.heap.poolSnap))
      (q := fun s => .free (.rsv j) C.s.heap.nalloc (.cas s.heap.poolSnap)) htu
      (fun s => { s with heap := s.heap.setNextPtr C.s.heap.nalloc s.heap.pool.ptr }) (fun s _ _ => rfl)
      (fun s => ⟨rfl, rfl, rfl, rfl, rfl⟩) ?_ (fun _ => trivial) N ⟨by simp [htu, hu], by simp, rfl, m, v, hm, ?_⟩
    · intro s s' _ _ h3 h4
      exact ⟨by simp [tstep, dStep, Heap.poolSnap, hcas h3], trivial⟩
    · have : m ≠ C.s.heap.nalloc := fun h => by rw [h, nalloc_data hx] at hv; simp at hv
      simp [Heap.malloc, this, hv]
  | empty => exact ho.elim

/-- **C53**: a call of `empty`, in contrast, is finished by its third step, whatever the other threads do, and it is never
blocked: as long as it has not returned, its thread has made at most two steps and can make the next one. -/
theorem stack_empty_wait_free {k} {C' : Conf α} (ht : C.pc t = .idle)
    (hx : Watched (mach α cfg) (fun _ _ _ => True) t C h C' k) (hh : h.filter (·.tid = t) = [.inv t .empty]) :
    k ≤ 2 ∧ ∃ x, tstep cfg t C'.s (C'.pc t) .go = some x := by
  have key : (h.filter (·.tid = t) = [] → C'.pc t = .idle ∧ k = 0) ∧
      (h.filter (·.tid = t) = [.inv t .empty] → (C'.pc t = .eload ∧ k = 1) ∨ (∃ b, C'.pc t = .ret (.isEmpty b)) ∧ k = 2) := by
    clear hh
    induction hx with
    | refl => exact ⟨fun _ => ⟨ht, rfl⟩, by simp⟩
    | @other h C k u ch s' p' e _ hu hs _ ih =>
      have he : ∀ x ∈ e.toList, x.tid = u := by
        cases e with
        | none => simp
        | some e => simpa using ((lawful cfg).event hs).2
      have : e.toList.filter (·.tid = t) = [] := by
        rw [List.filter_eq_nil_iff]; intro x hx'; rw [he x hx']; simpa using hu
      rw [List.filter_append, this, List.append_nil]
      simpa [upd_ne _ _ _ hu.symm] using ih
    | @own h C k ch s' p' e _ hs _ ih =>
      have hs : tstep cfg t C.s (C.pc t) ch = some (s', p', e) := hs
      simp only [List.filter_append, upd_self]
      refine ⟨fun hn => ?_, fun hn => ?_⟩
      · obtain ⟨h1, h2⟩ := List.append_eq_nil_iff.1 hn
        rw [(ih.1 h1).1] at hs
        cases ch <;> simp [tstep] at hs
        obtain ⟨-, rfl, rfl⟩ := hs
        simp [Event.tid] at h2
      · rcases List.append_eq_singleton_iff.1 hn with ⟨h1, h2⟩ | ⟨h1, h2⟩
        · obtain ⟨h3, rfl⟩ := ih.1 h1
          rw [h3] at hs
          cases ch <;> simp [tstep] at hs
          obtain ⟨hp, rfl, rfl⟩ := hs
          simp [Event.tid] at h2
          subst h2
          simp [start] at hp
          exact .inl ⟨hp.symm, rfl⟩
        · rcases ih.2 h1 with ⟨h3, rfl⟩ | ⟨⟨b, h3⟩, rfl⟩
          · rw [h3] at hs
            cases ch <;> simp [tstep] at hs
            obtain ⟨rfl, rfl, rfl⟩ := hs
            exact .inr ⟨⟨_, rfl⟩, rfl⟩
          · rw [h3] at hs
            cases ch <;> simp [tstep] at hs
            obtain ⟨rfl, rfl, rfl⟩ := hs
            simp [Event.tid] at h2
  rcases key.2 hh with ⟨h1, rfl⟩ | ⟨⟨b, h1⟩, rfl⟩
  · exact ⟨by omega, _, by rw [h1]; rfl⟩
  · exact ⟨by omega, _, by rw [h1]; rfl⟩

/-! ### A concrete case: a fixed-size stack of two nodes, `uint16_t` tags, after one `push` -/

private def one : St Nat := afterPush ⟨65536, true⟩ (Conf.initial 2).s 1 5

private theorem one_exec : FreshExec (⟨65536, true⟩ : Cfg) 2 [.inv 1 (.push false 5), .res 1 (.pushed true)]
    ⟨one, upd (Conf.initial 2).pc 1 .idle⟩ :=
  ((push_plain (cfg := ⟨65536, true⟩) (u := 1) (m := 1) 5 rfl rfl).steps (C := Conf.initial 2) rfl rfl).mono fun _ _ _ h => h.1

/-- C53: thread 0 makes a million steps in one `push`; one node is left in the freelist for it -/
example : ∃ h' C' k, 1000000 ≤ k ∧ Watched (mach Nat ⟨65536, true⟩) (okPlain ⟨65536, true⟩) 0
    ⟨one, upd (Conf.initial 2).pc 1 .idle⟩ (.inv 0 (.push true 7) :: h') C' k ∧ By 1 h' :=
  stack_not_wait_free (by simp) one_exec (by simp) rfl rfl (by simp [one, afterPush]) (.push true 7)
    (Or.inl (by show some 0 ≠ none; simp)) _

/-- C53: `empty` between its load and its return, while thread 1 has called `pop` -/
example : let C : Conf Nat := ⟨one, upd (Conf.initial 2).pc 1 .idle⟩
    ∃ C', Watched (mach Nat ⟨65536, true⟩) (fun _ _ _ => True) 0 C [.inv 0 .empty, .inv 1 (.pop false)] C' 2 :=
  ⟨_, .own (m := mach Nat ⟨65536, true⟩) (ch := Choice.go) (e := none)
    (.other (m := mach Nat ⟨65536, true⟩) (u := 1) (ch := Choice.call (.pop false)) (e := some (.inv 1 (.pop false)))
      (.own (m := mach Nat ⟨65536, true⟩) (ch := Choice.call .empty) (e := some (.inv 0 .empty)) .refl rfl trivial)
      (by simp) rfl trivial) rfl trivial⟩

end Verif.Stack
