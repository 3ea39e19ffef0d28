import Verif.TextStarve
import Verif.Freelist.UnsyncProps

/-!
# The freelists on their own: single calls may be delayed for ever (C79)

No code of /repo is modelled here.
-/

namespace Verif.Freelist
open Lin Text

variable {α : Type} {R : Rep} {s : SMem R.K α} {t u : Nat} {n : Nat} {h : History (Op α) Ret}

/-- Nothing goes wrong in the step: no compare-exchange fails spuriously, no read races, the allocator does not throw, no tag has wrapped. -/
def okPlain (R : Rep) (s : SMem R.K α) (p : PC R.K α) (ch : SChoice R.K (Op α) α) : Prop := okFresh R s p ch ∧ (ch = .go ∨ ∃ o, ch = .call o)

section
variable {p p' p'' : PC R.K α} {s' s'' : SMem R.K α} {k : Nat}

theorem al_go (hs : step R u s p .go = some (s', p', none)) (hf : okFresh R s p .go)
    (hx : Alone (smach α R) (okPlain R) u k s' p' h s'' p'') : Alone (smach α R) (okPlain R) u (k + 1) s p h s'' p'' :=
  Alone.cons (m := smach α R) (e := none) hs ⟨hf, .inl rfl⟩ hx

theorem al_call (o : Op α) (hs : step R u s .idle (.call o) = some (s, p', some (.inv u o)))
    (hx : Alone (smach α R) (okPlain R) u k s p' h s'' p'') :
    Alone (smach α R) (okPlain R) u (k + 1) s .idle (.inv u o :: h) s'' p'' :=
  Alone.cons (m := smach α R) (ch := .call o) (e := some (.inv u o)) hs ⟨trivial, .inr ⟨_, rfl⟩⟩ hx

theorem al_ret (r : Ret) : Alone (smach α R) (okPlain R) u 1 s (.ret r) [.res u r] s .idle :=
  Alone.one (m := smach α R) (ch := .go) (e := some (.res u r)) rfl ⟨trivial, .inl rfl⟩

end

/-- The memory after a `construct` that takes node `m`. -/
def afterConstruct (R : Rep) (s : SMem R.K α) (m : Nat) (v : α) : SMem R.K α :=
  SMem.setData { s with pool := R.K.pack (R.K.ptr (s.next m)) (R.K.next (R.K.tag s.pool)), poolVer := s.poolVer + 1 } m (some v)

/-- The memory after a `destruct` of node `m`. -/
def afterDestruct (R : Rep) (s : SMem R.K α) (m : Nat) : SMem R.K α :=
  { (s.setData m none).setLink m (R.K.ptr s.pool) with pool := R.K.pack (R.K.hnd (some m)) (R.K.tag s.pool) }

/-- A `construct` without interference. -/
theorem construct_plain {m : Nat} (hM : 0 < R.M) (b : Bool) (v : α) (hm : R.K.node (R.K.ptr s.pool) = some m) (hd : s.data m = none) :
    Alone (smach α R) (okPlain R) u 6 s .idle [.inv u (.construct b v false), .res u (.node (some m))] (afterConstruct R s m v) .idle := by
  refine al_call (.construct b v false) rfl ?_
  refine al_go rfl trivial ?_
  refine al_go (s' := s) (p' := .alloc b v false (.cas s.poolSnap (R.K.ptr (s.next m)))) (by simp [step, saStep, SMem.poolSnap, hm]) trivial ?_
  refine al_go (s' := { s with pool := R.K.pack (R.K.ptr (s.next m)) (R.K.next (R.K.tag s.pool)), poolVer := s.poolVer + 1 }) (p' := .constr v false m)
    (by simp [step, saStep, SMem.poolSnap, hm]) (by simp only [okFresh, saFresh, SMem.poolSnap]; omega) ?_
  refine al_go (s' := afterConstruct R s m v) (p' := .ret (.node (some m))) (by simp [step, hd, afterConstruct]) trivial ?_
  exact al_ret _

/-- A `destruct` without interference. -/
theorem destruct_plain {m : Nat} {v : α} (hd : s.data m = some v) :
    Alone (smach α R) (okPlain R) u 6 s .idle [.inv u (.destruct m), .res u .done] (afterDestruct R s m) .idle := by
  refine al_call (.destruct m) rfl ?_
  refine al_go (s' := s.setData m none) (p' := .free m .load) (by simp [step, hd]) trivial ?_
  refine al_go rfl trivial ?_
  refine al_go rfl trivial ?_
  refine al_go (s' := afterDestruct R s m) (p' := .ret .done) (by simp [step, sdStep, SMem.poolSnap, SMem.setData, SMem.setLink, afterDestruct]) trivial ?_
  exact al_ret _

/-- The freelist has a node, `m`, and its tag is `k`. -/
def Top (R : Rep) (s : SMem R.K α) (m k : Nat) : Prop :=
  R.K.node (R.K.ptr s.pool) = some m ∧ s.data m = none ∧ m < R.limit ∧ R.K.tag s.pool = R.encT k ∧ k < R.M

/-- Thread `u` takes a node and gives it back: the tag has changed. -/
theorem swap_plain {m k : Nat} (hf : R.Faithful) (b : Bool) (v : α) (ht : Top R s m k) :
    ∃ s', Alone (smach α R) (okPlain R) u 12 s .idle
        [.inv u (.construct b v false), .res u (.node (some m)), .inv u (.destruct m), .res u .done] s' .idle ∧
      Top R s' m ((k + 1) % R.M) ∧ s'.poolVer = s.poolVer + 1 := by
  obtain ⟨h1, h2, h3, h4, h5⟩ := ht
  refine ⟨afterDestruct R (afterConstruct R s m v) m,
    (construct_plain hf.pos b v h1 h2).trans (destruct_plain (v := v) (by simp [afterConstruct, SMem.setData])), ⟨?_, ?_, h3, ?_, Nat.mod_lt _ hf.pos⟩, ?_⟩
  · have h6 : ∀ n, some m = some n → n < R.limit := by rintro n ⟨⟩; exact h3
    simp [afterDestruct, hf.words.ptr_pack (some m) _ h6, hf.words.node_hnd (some m) h6]
  · simp [afterDestruct, SMem.setData, SMem.setLink]
  · simp [afterDestruct, afterConstruct, SMem.setData, hf.words.tag_pack, h4, hf.words.next_tag k h5]
  · simp [afterDestruct, afterConstruct, SMem.setData, SMem.setLink]

/-- An event of a thread `u` that takes a node and gives it back. -/
def Swap (u : Nat) : Event (Op α) Ret → Prop
  | .inv v (.construct _ _ thr) => v = u ∧ thr = false
  | .inv v (.destruct _) => v = u
  | .res v r => v = u ∧ (r = .done ∨ ∃ m, r = .node (some m))

/-- Only thread `u` calls and returns; it takes nodes and gives them back. -/
abbrev By (u : Nat) (h : History (Op α) Ret) : Prop := ∀ e ∈ h, Swap u e

/-- One round: thread `t` goes from the loop head `p` to its compare-exchange `q`, thread `u` takes a node and gives it back, the compare-exchange of `t`
fails. -/
theorem round {p q : SMem R.K α → PC R.K α} {m : Nat} (hf : R.Faithful) (hM : R.M ≠ 1) (htu : u ≠ t) (b : Bool) (v : α) (f : SMem R.K α → SMem R.K α)
    (h1 : ∀ s : SMem R.K α, R.K.node (R.K.ptr s.pool) = some m → step R t s (p s) .go = some (f s, q s, none))
    (h2 : ∀ s : SMem R.K α, (f s).pool = s.pool ∧ (f s).poolVer = s.poolVer ∧ (f s).data = s.data)
    (h3 : ∀ s s' : SMem R.K α, s'.pool ≠ s.pool → s'.poolVer = s.poolVer + 1 →
      step R t s' (q s) .go = some (s', p s', none) ∧ okFresh R s' (q s) .go)
    (h4 : ∀ s, okFresh R s (p s) .go) (N : Nat) {C : MConf (SMem R.K α) (PC R.K α)}
    (hC : C.pc u = .idle ∧ C.pc t = p C.s ∧ ∃ k, Top R C.s m k) :
    ∃ h' C' k, N ≤ k ∧ Watched (smach α R) (okPlain R) t C h' C' k ∧ By u h' := by
  obtain ⟨h', C', k, hk, hw, -, hy⟩ := Watched.rounds_of (m := smach α R) (ok := okPlain R) (t := t) (Q := Swap u)
    (fun C => C.pc u = .idle ∧ C.pc t = p C.s ∧ ∃ k, Top R C.s m k) (fun C hJ => by
      obtain ⟨hu, ht, k, hk⟩ := hJ
      obtain ⟨f1, f2, f3⟩ := h2 C.s
      obtain ⟨s', hs', ht1, ht2⟩ := swap_plain (u := u) (s := f C.s) (m := m) (k := k) hf b v (by simpa only [Top, f1, f3] using hk)
      have hne : s'.pool ≠ C.s.pool := by
        intro he
        have e1 := ht1.2.2.2.1
        rw [he, hk.2.2.2.1] at e1
        have e2 := hf.words.tag_inj _ _ hk.2.2.2.2 (Nat.mod_lt _ hf.pos) e1
        exact Cfg.nextTag_ne R.cfg hM k (by have := hf.pos; simp only [Cfg.nextTag, Rep.cfg]; exact e2.symm)
      have w1 : Watched (smach α R) (okPlain R) t C [] ⟨f C.s, upd C.pc t (q C.s)⟩ 1 :=
        .own (ch := .go) (e := none) .refl (by rw [ht]; exact h1 C.s hk.1) (by rw [ht]; exact ⟨h4 _, .inl rfl⟩)
      have w2 := w1.trans (.by_other htu hs' rfl (by show upd C.pc t (q C.s) u = _; rw [upd_ne _ _ _ htu, hu]))
      have h5 := h3 C.s s' hne (by rw [ht2, f2])
      have w3 := w2.trans (.own (ch := .go) (e := none) (s' := s') (p' := p s') .refl
        (by show step R t s' (upd (upd C.pc t (q C.s)) u .idle t) .go = _
            rw [upd_ne _ _ _ htu.symm, upd_self]; exact h5.1)
        (by show okPlain R s' (upd (upd C.pc t (q C.s)) u .idle t) .go
            rw [upd_ne _ _ _ htu.symm, upd_self]; exact ⟨h5.2, .inl rfl⟩))
      refine ⟨_, _, _, by omega, w3, ⟨?_, ?_, _, ht1⟩, ?_⟩
      · simp [upd_ne _ _ _ htu]
      · simp
      · simp [Swap]) N hC
  exact ⟨h', C', k, hk, hw, hy⟩

/-- What is known about a reachable state whose freelist is not empty. -/
theorem top_of (hf : R.Faithful) (hn : n ≤ R.limit) {C : MConf (SMem R.K α) (PC R.K α)}
    (hx : MSteps (smach α R) (okFresh R) ⟨SMem.initial R n, fun _ => .idle⟩ h C) (hd : Disciplined h) {m : Nat}
    (hm : R.K.node (R.K.ptr C.s.pool) = some m) : ∃ k, Top R C.s m k := by
  obtain ⟨c, -, H, own, F, held, hsh, -⟩ := ginv hf hn hx hd
  have hok := hsh.mem.okPool.mono hsh.mem.limit
  rw [hsh.mem.pool, hf.node hok] at hm
  have hc := hsh.hinv.chain
  rw [hm] at hc
  refine ⟨H.pool.tag, by rw [hsh.mem.pool, hf.node hok, hm], ?_, hok.1 m hm, ?_, hok.2⟩
  · rw [hsh.mem.data]
    cases hF : F with
    | nil => rw [hF] at hc; simp [Chain] at hc
    | cons a l =>
      have ha : m = a := by rw [hF] at hc; simp [Chain] at hc; exact hc.1
      exact hsh.hinv.fdata m (.inl ((hsh.hinv.fmem m).2 (by rw [hF, ha]; simp)))
  · rw [hsh.mem.pool]
    exact hf.words.tag_pack _ _

/-- The calls that can be delayed: `destruct` of a node that holds an object. -/
def Delayable (s : SMem R.K α) : Op α → Prop
  | .construct _ _ _ => True
  | .destruct d => (s.data d).isSome

/-- **C79**: no single call of the freelists is certain to finish. From every reachable state of a freelist that is not empty in which threads `t ≠ u` are
between calls, and for every number `N`, there is a continuation in which `t` calls `construct` or `destruct` and makes `N` steps without returning, although
only `t` and `u` move, `u` merely takes a node and gives it back again and again, no compare-exchange fails spuriously, nothing throws and no tag wraps. -/
theorem freelist_not_wait_free (hf : R.Faithful) (hM : R.M ≠ 1) (hn : n ≤ R.limit) {C : MConf (SMem R.K α) (PC R.K α)}
    (hx : MSteps (smach α R) (okFresh R) ⟨SMem.initial R n, fun _ => .idle⟩ h C) (hd : Disciplined h) (htu : u ≠ t) (ht : C.pc t = .idle)
    (hu : C.pc u = .idle) (hne : R.K.node (R.K.ptr C.s.pool) ≠ none) (o : Op α) (ho : Delayable C.s o) (v : α) (N : Nat) :
    ∃ h' C' k, N ≤ k ∧ Watched (smach α R) (okPlain R) t C (.inv t o :: h') C' k ∧ By u h' := by
  obtain ⟨m, hm⟩ := Option.ne_none_iff_exists'.1 hne
  obtain ⟨k, hk⟩ := top_of hf hn hx hd hm
  have hpos := hf.pos
  have fin : ∀ {s' p₀ j}, Alone (smach α R) (okPlain R) t j C.s .idle [.inv t o] s' p₀ →
      (∃ h' C' k, N ≤ k ∧ Watched (smach α R) (okPlain R) t ⟨s', upd C.pc t p₀⟩ h' C' k ∧ By u h') →
      ∃ h' C' k, N ≤ k ∧ Watched (smach α R) (okPlain R) t C (.inv t o :: h') C' k ∧ By u h' := by
    intro s' p₀ j h1 ⟨h', C', k, h2, h3, h4⟩
    exact ⟨h', C', j + k, by omega, (Watched.alone h1 rfl ht).trans h3, h4⟩
  cases o with
  | construct b w thr =>
    refine fin (al_call (.construct b w thr) rfl (al_go rfl trivial (.nil _ _))) ?_
    refine round (p := fun s => .alloc b w thr (.test s.poolSnap)) (q := fun s => .alloc b w thr (.cas s.poolSnap (R.K.ptr (s.next m)))) hf hM htu true v
      (fun s => s) ?_ (fun s => ⟨rfl, rfl, rfl⟩) ?_ (fun _ => trivial) N ⟨by simp [htu, hu], by simp, k, hk⟩
    · intro s hs
      simp [step, saStep, SMem.poolSnap, hs]
    · intro s s' h1 h2
      exact ⟨by simp [step, saStep, SMem.poolSnap, h1], by simp only [okFresh, saFresh, SMem.poolSnap, h2]; omega⟩
  | destruct d =>
    have hdm : d ≠ m := by rintro rfl; simp [Delayable, hk.2.1] at ho
    have ho : (C.s.data d).isSome = true := ho
    refine fin (al_call (.destruct d) rfl (al_go (s' := C.s.setData d none) (p' := .free d .load) (by simp [step, ho]) trivial (al_go rfl trivial (.nil _ _)))) ?_
    refine round (m := m) (p := fun s => .free d (.set s.poolSnap)) (q := fun s => .free d (.cas s.poolSnap)) hf hM htu true v
      (fun s => s.setLink d (R.K.ptr s.pool)) ?_ (fun s => ⟨rfl, rfl, rfl⟩) ?_ (fun _ => trivial) N ⟨by simp [htu, hu], by simp, k, ?_⟩
    · intro s _
      simp [step, sdStep, SMem.poolSnap]
    · intro s s' h1 _
      exact ⟨by simp [step, sdStep, SMem.poolSnap, h1], trivial⟩
    · refine ⟨hk.1, ?_, hk.2.2⟩
      simp [SMem.setData, upd_ne _ _ _ hdm.symm, hk.2.1]

/-- `go`: nothing goes wrong in an access. -/
abbrev Plain (ch : SChoice R.K (Op α) α) : Prop := ch = .go ∨ ∃ o, ch = .call o

/-- **C79 (program text).** After every history `h` of disciplined users that the machine has, and that leaves the freelist not empty and `t ≠ u` between
calls, the text can be executed such that `t` calls `construct` or `destruct` and executes `N` statements or more without returning, although after `h` only
`u` calls and returns. (What `t` executed during `h` is included; C78 bounds it in terms of `h`.) -/
theorem freelist_text_not_wait_free (hf : R.Faithful) (hM : R.M ≠ 1) (hn : n ≤ R.limit) {C : MConf (SMem R.K α) (PC R.K α)} {j : Nat}
    (hx : Watched (smach α R) (okPlain R) t ⟨SMem.initial R n, fun _ => .idle⟩ h C j) (hd : Disciplined h) (htu : u ≠ t) (ht : C.pc t = .idle)
    (hu : C.pc u = .idle) (hne : R.K.node (R.K.ptr C.s.pool) ≠ none) (o : Op α) (ho : Delayable C.s o) (v : α) (N : Nat) :
    ∃ h' C' k, N ≤ k ∧ Watched (program R α).mach (okWith (fun _ _ => True) Plain) t ⟨SMem.initial R n, fun _ => .idle⟩ (h ++ .inv t o :: h') C' k ∧
      By u h' := by
  have hx' : MSteps (smach α R) (okFresh R) ⟨SMem.initial R n, fun _ => .idle⟩ h C := hx.steps.mono fun _ _ _ h => h.1
  obtain ⟨h', C', k, h1, h2, h3⟩ := freelist_not_wait_free hf hM hn hx' hd htu ht hu hne o ho v (2 * N)
  obtain ⟨D, k', h4, -, -, h5, -⟩ := refines.watched complete (pl := Plain) (fun _ _ _ => rfl) (fun _ _ _ _ => trivial) (hx.trans h2)
  exact ⟨h', D, k', by omega, h4, h3⟩

theorem initial_top (hf : R.Faithful) (hn : n ≤ R.limit) (h0 : 0 < n) : R.K.node (R.K.ptr (SMem.initial (α := α) R n).pool) = some (n - 1) := by
  obtain ⟨n, rfl⟩ : ∃ k, n = k + 1 := ⟨n - 1, by omega⟩
  have h1 := MemRel.initial (α := α) hf (show n ≤ R.limit by omega)
  have h2 : (SMem.initial (α := α) R n).nalloc = n := h1.2
  have h3 : ∀ k, some n = some k → k < R.limit := by rintro k ⟨⟩; omega
  simp [SMem.initial, SMem.deallocUnsafe, h2, hf.words.ptr_pack (some n) _ h3, hf.words.node_hnd (some n) h3]

/-- **C79 (program text, from the beginning).** A freelist constructed with at least one node; the first call is `construct` of thread `t`. For every `N` there
is an execution in which `t` executes `N` statements or more without returning, although only `u` calls and returns, no compare-exchange fails spuriously,
nothing throws and no tag wraps. -/
theorem freelist_text_construct_starves (hf : R.Faithful) (hM : R.M ≠ 1) (hn : n ≤ R.limit) (h0 : 0 < n) (htu : u ≠ t) (b : Bool) (w : α) (thr : Bool)
    (N : Nat) :
    ∃ h' C' k, N ≤ k ∧ Watched (program R α).mach (okWith (fun _ _ => True) Plain) t ⟨SMem.initial R n, fun _ => .idle⟩ (.inv t (.construct b w thr) :: h') C' k ∧
      By u h' :=
  freelist_text_not_wait_free hf hM hn .refl (by intro h₁ t n h₂ he; simp at he) htu rfl rfl (by simp [initial_top hf hn h0]) (.construct b w thr) trivial w N

end Verif.Freelist
