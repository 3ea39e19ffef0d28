import Verif.HeapInv
import Verif.Stack.Model

/-!
# Stack: inductive invariant and simulation by the canonical atomic stack (proof)
-/

namespace Verif
open Lin

namespace Stack

variable {α : Type}

/-- Ghost state. -/
structure G where
  own : Nat → Owner
  F : List Nat
  S : List Nat
  held : Nat → List Nat

/-- Shared part of the invariant; `σ` is the abstract stack. -/
structure SI (cfg : Cfg) (s : St α) (g : G) (σ : List α) : Prop where
  heap : HInv cfg s.heap g.own g.F g.held
  chain : Chain s.heap.next s.tos.ptr g.S
  nodup : g.S.Nodup
  mem : ∀ n, g.own n = .str ↔ n ∈ g.S
  tag : s.tos.tag = s.tosVer % cfg.M
  data : g.S.map s.heap.data = σ.map some

/-- A snapshot of `tos`. -/
def TSnap (cfg : Cfg) (s : St α) (S : List Nat) (o : Snap) : Prop :=
  o.ver ≤ s.tosVer ∧ o.v.tag = o.ver % cfg.M ∧
    ∀ n, o.v.ptr = some n → n < s.heap.nalloc ∧ (o.ver = s.tosVer → n ∈ S)

/-- Nodes prepared by a range push. -/
def Prep (h : Heap α) (te : Option (Nat × Nat)) (acc : List α) (l : List Nat) : Prop :=
  match te with
  | none => l = [] ∧ acc = []
  | some (top, e) =>
      Chain h.next (some top) l ∧ l.getLast? = some e ∧ l.map h.data = acc.reverse.map some

/-- The functor has not thrown yet after the calls in `acc`. -/
def NT (thr : Option Nat) (acc : List α) : Prop := ∀ k, thr = some k → acc.length ≤ k

section
variable (S : Spec (Op α) (Ret α)) (h : Heap α) (st : Status (Op α) (Ret α))

def isPend (st : Status (Op α) (Ret α)) (o : Op α) : Prop := ∃ P, st = .pend o P
def isDone (st : Status (Op α) (Ret α)) (r : Ret α) : Prop := ∃ o, st = .done o r

/-- Nodes `l` remain to be consumed after `acc`. -/
def Rem (thr : Option Nat) (acc : List α) (l : List Nat) : Prop :=
  ∃ vals : List α, l.map h.data = vals.map some ∧ isDone st (.took (seen thr (acc ++ vals)))
end

/-- Local invariant of a thread with held nodes `l` and canonical status `st`. -/
def Local (cfg : Cfg) (s : St α) (F S : List Nat) (l : List Nat) (st : Status (Op α) (Ret α)) :
    PC α → Prop
  | .idle => l = [] ∧ st = .idle
  | .alloc b (.one v) a => l = [] ∧ isPend st (.push b v) ∧ ALocal cfg s.heap F a
  | .alloc b (.range acc te v rest) a =>
      Prep s.heap te acc l ∧ isPend st (.pushRange b (acc ++ v :: rest)) ∧ ALocal cfg s.heap F a ∧
        cfg.fixed = false
  | .constr b (.one v) n => l = [n] ∧ isPend st (.push b v) ∧ s.heap.data n = none
  | .constr b (.range acc te v rest) n =>
      ∃ l', l = n :: l' ∧ Prep s.heap te acc l' ∧ isPend st (.pushRange b (acc ++ v :: rest)) ∧
        s.heap.data n = none ∧ cfg.fixed = false
  | .rlink b acc te v rest n =>
      ∃ l', l = n :: l' ∧ Prep s.heap te acc l' ∧ isPend st (.pushRange b (acc ++ v :: rest)) ∧
        s.heap.data n = some v ∧ cfg.fixed = false
  | .lload top e r | .lset top e _ r =>
      ∃ (q : Option Nat) (o : Op α) (vs : List α), Seg s.heap.next (some top) l q ∧ l.getLast? = some e ∧
        l.map s.heap.data = vs.map some ∧ isPend st o ∧ ∀ σ, specStep cfg.fixed σ o r (vs ++ σ)
  | .lcas top e sn r =>
      ∃ (o : Op α) (vs : List α), Seg s.heap.next (some top) l sn.v.ptr ∧ l.getLast? = some e ∧
        l.map s.heap.data = vs.map some ∧ isPend st o ∧ ∀ σ, specStep cfg.fixed σ o r (vs ++ σ)
  | .pload thr => l = [] ∧ isPend st (.pop thr)
  | .ptest thr o => l = [] ∧ (o.v.ptr = none → isDone st (.popped none)) ∧
      (o.v.ptr ≠ none → isPend st (.pop thr)) ∧ TSnap cfg s S o
  | .pcas thr o nx => l = [] ∧ isPend st (.pop thr) ∧ TSnap cfg s S o ∧
      ∃ n, o.v.ptr = some n ∧ (o.ver = s.tosVer → (s.heap.next n).ptr = nx)
  | .papply _ n => l = [n] ∧ ∃ v, s.heap.data n = some v ∧ isDone st (.popped (some v))
  | .pdestroy n v => l = [n] ∧ s.heap.data n ≠ none ∧ isDone st (.popped (some v))
  | .free k n d => ∃ l', l = n :: l' ∧ s.heap.data n = none ∧ DLocal s.heap n d ∧
      match k with
      | .pop v => l' = [] ∧ isDone st (.popped (some v))
      | .cons thr acc nx => Chain s.heap.next nx l' ∧ Rem s.heap st thr acc l' ∧ NT thr acc
      | .rsv _ => l' = [] ∧ ∃ j, isPend st (.reserve j)
      | .undo nx => Chain s.heap.next nx l' ∧ (∀ m ∈ l', s.heap.data m ≠ none) ∧ isDone st .threw
  | .cload rev thr => l = [] ∧ isPend st (.consumeAll rev thr)
  | .ctest rev thr o => l = [] ∧ (o.v.ptr = none → isDone st (.took [])) ∧
      (o.v.ptr ≠ none → isPend st (.consumeAll rev thr)) ∧ TSnap cfg s S o
  | .ccas rev thr o => l = [] ∧ isPend st (.consumeAll rev thr) ∧ TSnap cfg s S o ∧ ∃ n, o.v.ptr = some n
  | .crev thr n last => ∃ (A B : List Nat) (vals : List α), l = A ++ n :: B ∧ Chain s.heap.next (some n) (n :: B) ∧
      Chain s.heap.next last A.reverse ∧ l.map s.heap.data = vals.map some ∧
      isDone st (.took (seen thr vals.reverse))
  | .crevSet thr n last nx => ∃ (A B : List Nat) (vals : List α), l = A ++ n :: B ∧ Chain s.heap.next nx B ∧
      Chain s.heap.next last A.reverse ∧ l.map s.heap.data = vals.map some ∧
      isDone st (.took (seen thr vals.reverse))
  | .capply thr n acc => Chain s.heap.next (some n) l ∧ Rem s.heap st thr acc l ∧ NT thr acc
  | .cread thr n acc => ∃ l', l = n :: l' ∧ Chain s.heap.next (some n) l ∧ s.heap.data n ≠ none ∧
      Rem s.heap st thr acc l' ∧ NT thr acc
  | .cdestroy thr n acc nx => ∃ l', l = n :: l' ∧ Chain s.heap.next nx l' ∧ s.heap.data n ≠ none ∧
      Rem s.heap st thr acc l' ∧ NT thr acc
  | .eload => l = [] ∧ isPend st .empty
  | .rsv _ => l = [] ∧ ∃ j, isPend st (.reserve j)
  | .undo n => Chain s.heap.next (some n) l ∧ (∀ m ∈ l, s.heap.data m ≠ none) ∧ isDone st .threw
  | .undoD n nx => ∃ l', l = n :: l' ∧ Chain s.heap.next nx l' ∧ (∀ m ∈ l, s.heap.data m ≠ none) ∧
      isDone st .threw
  | .ret r => l = [] ∧ isDone st r
  | .err => False

/-! ### Stability under steps of other threads -/

/-- What thread `t` can rely on when another thread makes a step. -/
structure Rely (l : List Nat) (s : St α) (F S : List Nat) (s' : St α) (F' S' : List Nat) : Prop where
  next : ∀ n ∈ l, s'.heap.next n = s.heap.next n
  data : ∀ n ∈ l, s'.heap.data n = s.heap.data n
  nalloc : s.heap.nalloc ≤ s'.heap.nalloc
  pver : s.heap.poolVer ≤ s'.heap.poolVer
  pF : s'.heap.poolVer = s.heap.poolVer → ∀ n ∈ F, n ∈ F' ∧ (s'.heap.next n).ptr = (s.heap.next n).ptr
  tver : s.tosVer ≤ s'.tosVer
  tS : s'.tosVer = s.tosVer → ∀ n ∈ S, n ∈ S' ∧ (s'.heap.next n).ptr = (s.heap.next n).ptr

theorem TSnap.mono {cfg : Cfg} {l s F S s' F' S'} (hr : Rely (α := α) l s F S s' F' S') {o : Snap}
    (hp : TSnap cfg s S o) : TSnap cfg s' S' o := by
  obtain ⟨h1, h2, h3⟩ := hp
  have := hr.tver
  have := hr.nalloc
  refine ⟨by omega, h2, fun n hn => ⟨?_, fun he => ?_⟩⟩
  · have := (h3 n hn).1; omega
  · exact (hr.tS (by omega) n ((h3 n hn).2 (by omega))).1

theorem TSnap.mono_next {cfg : Cfg} {l s F S s' F' S'} (hr : Rely (α := α) l s F S s' F' S') {o : Snap}
    (hp : TSnap cfg s S o) {n nx} (hn : o.v.ptr = some n)
    (h : o.ver = s.tosVer → (s.heap.next n).ptr = nx) : o.ver = s'.tosVer → (s'.heap.next n).ptr = nx := by
  intro he
  have := hr.tver
  have := hp.1
  rw [(hr.tS (by omega) n ((hp.2.2 n hn).2 (by omega))).2]
  exact h (by omega)

theorem Prep.congr {h h' : Heap α} {te acc l} (hp : Prep h te acc l)
    (hn : ∀ n ∈ l, (h'.next n).ptr = (h.next n).ptr) (hd : ∀ n ∈ l, h'.data n = h.data n) : Prep h' te acc l := by
  cases te with
  | none => exact hp
  | some te =>
    obtain ⟨h1, h2, h3⟩ := hp
    exact ⟨h1.congr hn, h2, by rw [← h3]; exact List.map_congr_left hd⟩

theorem Rem.congr {h h' : Heap α} {st thr acc l} (hp : Rem h st thr acc l)
    (hd : ∀ n ∈ l, h'.data n = h.data n) : Rem h' st thr acc l := by
  obtain ⟨vals, h1, h2⟩ := hp
  exact ⟨vals, by rw [← h1]; exact List.map_congr_left hd, h2⟩

theorem DLocal.congr {h h' : Heap α} {n d} (hd : DLocal h n d) (hn : h'.next n = h.next n) :
    DLocal h' n d := by
  cases d <;> simp_all [DLocal]

theorem Local.stable {cfg : Cfg} {l s F S s' F' S' st} (hr : Rely (α := α) l s F S s' F' S') {p : PC α}
    (hl : Local cfg s F S l st p) : Local cfg s' F' S' l st p := by
  have hA : ∀ {a}, ALocal cfg s.heap F a → ALocal cfg s'.heap F' a :=
    fun h => h.mono hr.nalloc hr.pver hr.pF
  have hN : ∀ n ∈ l, (s'.heap.next n).ptr = (s.heap.next n).ptr := fun n hn => by rw [hr.next n hn]
  have hM : l.map s'.heap.data = l.map s.heap.data := List.map_congr_left hr.data
  cases p with
  | idle => exact hl
  | alloc b k a =>
    cases k with
    | one v => exact ⟨hl.1, hl.2.1, hA hl.2.2⟩
    | range acc te v rest => exact ⟨hl.1.congr hN hr.data, hl.2.1, hA hl.2.2.1, hl.2.2.2⟩
  | constr b k n =>
    cases k with
    | one v =>
      obtain ⟨h1, h2, h3⟩ := hl
      exact ⟨h1, h2, by rw [hr.data n (by simp [h1])]; exact h3⟩
    | range acc te v rest =>
      obtain ⟨l', rfl, h2, h3, h4, h5⟩ := hl
      exact ⟨l', rfl, h2.congr (fun n hn => hN n (by simp [hn])) (fun n hn => hr.data n (by simp [hn])), h3,
        by rw [hr.data n (by simp)]; exact h4, h5⟩
  | rlink b acc te v rest n =>
    obtain ⟨l', rfl, h2, h3, h4, h5⟩ := hl
    exact ⟨l', rfl, h2.congr (fun n hn => hN n (by simp [hn])) (fun n hn => hr.data n (by simp [hn])), h3,
      by rw [hr.data n (by simp)]; exact h4, h5⟩
  | lload top e r =>
    obtain ⟨q, o, vs, h1, h2, h3, h4⟩ := hl
    exact ⟨q, o, vs, h1.congr hN, h2, by rw [hM]; exact h3, h4⟩
  | lset top e o r =>
    obtain ⟨q, o, vs, h1, h2, h3, h4⟩ := hl
    exact ⟨q, o, vs, h1.congr hN, h2, by rw [hM]; exact h3, h4⟩
  | lcas top e o r =>
    obtain ⟨o, vs, h1, h2, h3, h4⟩ := hl
    exact ⟨o, vs, h1.congr hN, h2, by rw [hM]; exact h3, h4⟩
  | pload thr => exact hl
  | ptest thr o => exact ⟨hl.1, hl.2.1, hl.2.2.1, hl.2.2.2.mono hr⟩
  | pcas thr o nx =>
    obtain ⟨h1, h2, h3, n, h4, h5⟩ := hl
    exact ⟨h1, h2, h3.mono hr, n, h4, h3.mono_next hr h4 h5⟩
  | papply thr n =>
    obtain ⟨h1, v, h2, h3⟩ := hl
    exact ⟨h1, v, by rw [hr.data n (by simp [h1])]; exact h2, h3⟩
  | pdestroy n v =>
    obtain ⟨h1, h2, h3⟩ := hl
    exact ⟨h1, by rw [hr.data n (by simp [h1])]; exact h2, h3⟩
  | free k n d =>
    obtain ⟨l', rfl, h2, h3, h4⟩ := hl
    refine ⟨l', rfl, by rw [hr.data n (by simp)]; exact h2, DLocal.congr h3 (hr.next n (by simp)), ?_⟩
    cases k with
    | pop v => exact h4
    | cons thr acc nx =>
      exact ⟨h4.1.congr fun n hn => hN n (by simp [hn]), h4.2.1.congr fun n hn => hr.data n (by simp [hn]),
        h4.2.2⟩
    | rsv k => exact h4
    | undo nx =>
      exact ⟨h4.1.congr fun n hn => hN n (by simp [hn]),
        fun m hm => by rw [hr.data m (by simp [hm])]; exact h4.2.1 m hm, h4.2.2⟩
  | cload rev thr => exact hl
  | ctest rev thr o => exact ⟨hl.1, hl.2.1, hl.2.2.1, hl.2.2.2.mono hr⟩
  | ccas rev thr o => exact ⟨hl.1, hl.2.1, hl.2.2.1.mono hr, hl.2.2.2⟩
  | crev thr n last =>
    obtain ⟨A, B, vals, rfl, h1, h2, h3, h4⟩ := hl
    exact ⟨A, B, vals, rfl, h1.congr fun n hn => hN n (by simp at hn ⊢; grind),
      h2.congr fun n hn => hN n (by simp at hn ⊢; grind), by rw [hM]; exact h3, h4⟩
  | crevSet thr n last nx =>
    obtain ⟨A, B, vals, rfl, h1, h2, h3, h4⟩ := hl
    exact ⟨A, B, vals, rfl, h1.congr fun n hn => hN n (by simp at hn ⊢; grind),
      h2.congr fun n hn => hN n (by simp at hn ⊢; grind), by rw [hM]; exact h3, h4⟩
  | capply thr n acc => exact ⟨hl.1.congr hN, hl.2.1.congr hr.data, hl.2.2⟩
  | cread thr n acc =>
    obtain ⟨l', rfl, h1, h2, h3, h4⟩ := hl
    exact ⟨l', rfl, h1.congr hN, by rw [hr.data n (by simp)]; exact h2,
      h3.congr fun n hn => hr.data n (by simp [hn]), h4⟩
  | cdestroy thr n acc nx =>
    obtain ⟨l', rfl, h1, h2, h3, h4⟩ := hl
    exact ⟨l', rfl, h1.congr fun n hn => hN n (by simp [hn]), by rw [hr.data n (by simp)]; exact h2,
      h3.congr fun n hn => hr.data n (by simp [hn]), h4⟩
  | eload => exact hl
  | rsv k => exact hl
  | undo n =>
    exact ⟨hl.1.congr hN, fun m hm => by rw [hr.data m hm]; exact hl.2.1 m hm, hl.2.2⟩
  | undoD n nx =>
    obtain ⟨l', rfl, h1, h2, h3⟩ := hl
    exact ⟨l', rfl, h1.congr fun n hn => hN n (by simp [hn]),
      fun m hm => by rw [hr.data m hm]; exact h2 m hm, h3⟩
  | ret r => exact hl
  | err => exact hl

/-! ### Steps on the shared state -/

/-- What a step of thread `t` guarantees to the others; `lk`: the step may leak nodes. -/
structure Guar (lk : Bool) (t : Nat) (s : St α) (g : G) (s' : St α) (g' : G) : Prop where
  others : ∀ t', t' ≠ t → g'.held t' = g.held t'
  frame : ∀ m, g.own m ≠ .thr t → g'.own m ≠ .thr t →
    s'.heap.next m = s.heap.next m ∧ s'.heap.data m = s.heap.data m
  nalloc : s.heap.nalloc ≤ s'.heap.nalloc
  pver : s.heap.poolVer ≤ s'.heap.poolVer
  pF : s'.heap.poolVer = s.heap.poolVer → ∀ n ∈ g.F, n ∈ g'.F
  tver : s.tosVer ≤ s'.tosVer
  tS : s'.tosVer = s.tosVer → ∀ n ∈ g.S, n ∈ g'.S
  keep : ∀ m, g.own m = .lost → g'.own m = .lost
  lost : ∀ m, g'.own m = .lost → g.own m = .lost ∨ (lk = true ∧ g.own m = .thr t)
  drop : lk = true → ∀ m, g.own m = .thr t → g'.own m = .thr t ∨ g'.own m = .lost
  tr : ∀ m, g'.own m = g.own m ∨ g.own m = .thr t ∨ g'.own m = .thr t
  fp : s'.heap.pool = s.heap.pool → ∀ m, g'.own m = .free ↔ g.own m = .free
  tp : s'.tos = s.tos → ∀ m, g'.own m = .str ↔ g.own m = .str

theorem Guar.rely {cfg : Cfg} {lk t s g s' g' σ σ'} (hg : Guar (α := α) lk t s g s' g') (hi : SI cfg s g σ)
    (hi' : SI cfg s' g' σ') {t'} (ht : t' ≠ t) : Rely (g.held t') s g.F g.S s' g'.F g'.S := by
  have hown : ∀ n ∈ g.held t', g.own n ≠ .thr t ∧ g'.own n ≠ .thr t := by
    intro n hn
    have h1 := (hi.heap.hmem t' n).2 hn
    have h2 := (hi'.heap.hmem t' n).2 (by rw [hg.others t' ht]; exact hn)
    grind
  refine ⟨fun n hn => (hg.frame n (hown n hn).1 (hown n hn).2).1,
    fun n hn => (hg.frame n (hown n hn).1 (hown n hn).2).2, hg.nalloc, hg.pver, fun he n hn => ?_,
    hg.tver, fun he n hn => ?_⟩
  · have h1 := hg.pF he n hn
    have := (hi.heap.fmem n).2 hn
    have := (hi'.heap.fmem n).2 h1
    exact ⟨h1, by rw [(hg.frame n (by grind) (by grind)).1]⟩
  · have h1 := hg.tS he n hn
    have := (hi.mem n).2 hn
    have := (hi'.mem n).2 h1
    exact ⟨h1, by rw [(hg.frame n (by grind) (by grind)).1]⟩

theorem Guar.refl (lk : Bool) (t : Nat) (s : St α) (g : G) : Guar lk t s g s g :=
  ⟨fun _ _ => rfl, fun _ _ _ => ⟨rfl, rfl⟩, Nat.le_refl _, Nat.le_refl _, fun _ _ h => h, Nat.le_refl _,
    fun _ _ h => h, fun _ h => h, fun _ h => .inl h, fun _ _ h => .inl h, fun _ => .inl rfl, fun _ _ => Iff.rfl,
    fun _ _ => Iff.rfl⟩

/-- Freelist steps. -/
theorem SI.fl {cfg : Cfg} {t s g σ} (hi : SI (α := α) cfg s g σ) {h' own' F' held'}
    (hs : HStep cfg t s.heap g.own g.F g.held h' own' F' held') :
    SI cfg { s with heap := h' } ⟨own', F', g.S, held'⟩ σ ∧
      Guar false t s g { s with heap := h' } ⟨own', F', g.S, held'⟩ := by
  have hfr : ∀ n ∈ g.S, h'.next n = s.heap.next n ∧ h'.data n = s.heap.data n := by
    intro n hn
    have h1 := (hi.mem n).2 hn
    have h2 := (hs.str n).2 h1
    have := hs.frame n (by grind) (by grind)
    exact ⟨this.1, this.2.1⟩
  refine ⟨⟨hs.inv, hi.chain.congr fun n hn => by rw [(hfr n hn).1], hi.nodup,
    fun n => (hs.str n).trans (hi.mem n), hi.tag, ?_⟩, ?_⟩
  · rw [← hi.data]; exact List.map_congr_left fun n hn => (hfr n hn).2
  · exact ⟨hs.others, fun m h1 h2 => ⟨(hs.frame m h1 h2).1, (hs.frame m h1 h2).2.1⟩, hs.nalloc, hs.pver, hs.pF,
      Nat.le_refl _, fun _ _ h => h, fun m => (hs.lost m).2, fun m h => .inl ((hs.lost m).1 h), by simp, hs.tr,
      hs.fp, fun _ => hs.str⟩

/-- Writing the link of an owned node. -/
theorem SI.setNext {cfg : Cfg} {t s g σ} (hi : SI (α := α) cfg s g σ) {n : Nat} (hn : n ∈ g.held t)
    (p : Option Nat) :
    SI cfg { s with heap := s.heap.setNextPtr n p } g σ ∧
      Guar false t s g { s with heap := s.heap.setNextPtr n p } g := by
  have hthr := (hi.heap.hmem t n).2 hn
  have hs : HStep cfg t s.heap g.own g.F g.held (s.heap.setNextPtr n p) g.own g.F g.held := by
    refine ⟨⟨?_, hi.heap.fnodup, hi.heap.fmem, hi.heap.hmem, hi.heap.hnodup, hi.heap.raw, hi.heap.tag,
      hi.heap.fdata⟩, fun _ _ => rfl, ?_, fun _ => Iff.rfl, Nat.le_refl _, Nat.le_refl _, fun _ _ h => h,
      fun _ => Iff.rfl, fun _ => .inl rfl, fun _ _ => Iff.rfl⟩
    · exact hi.heap.chain.congr fun m hm => by
        have := (hi.heap.fmem m).2 hm
        simp only [Heap.setNextPtr]; grind
    · intro m; simp only [Heap.setNextPtr]; grind
  exact hi.fl hs

theorem SI.setData {cfg : Cfg} {t s g σ} (hi : SI (α := α) cfg s g σ) {n : Nat} (hn : n ∈ g.held t)
    (d : Option α) :
    SI cfg { s with heap := s.heap.setData n d } g σ ∧
      Guar false t s g { s with heap := s.heap.setData n d } g := by
  have hthr := (hi.heap.hmem t n).2 hn
  have hs : HStep cfg t s.heap g.own g.F g.held (s.heap.setData n d) g.own g.F g.held := by
    refine ⟨⟨hi.heap.chain, hi.heap.fnodup, hi.heap.fmem, hi.heap.hmem, hi.heap.hnodup, hi.heap.raw,
      hi.heap.tag, ?_⟩, fun _ _ => rfl, ?_, fun _ => Iff.rfl, Nat.le_refl _, Nat.le_refl _, fun _ _ h => h,
      fun _ => Iff.rfl, fun _ => .inl rfl, fun _ _ => Iff.rfl⟩
    · intro m hm
      have := hi.heap.fdata m hm
      simp only [Heap.setData]; grind
    · intro m; simp only [Heap.setData]; grind
  exact hi.fl hs

/-- Leaking all held nodes. -/
def G.lose (g : G) (t : Nat) : G :=
  { g with own := fun m => if m ∈ g.held t then .lost else g.own m, held := upd g.held t [] }

theorem SI.lose {cfg : Cfg} {t s g σ} (hi : SI (α := α) cfg s g σ) :
    SI cfg s (g.lose t) σ ∧ Guar true t s g s (g.lose t) := by
  have hhm := hi.heap.hmem
  refine ⟨⟨⟨hi.heap.chain, hi.heap.fnodup, ?_, ?_, ?_, ?_, hi.heap.tag, ?_⟩, hi.chain, hi.nodup, ?_, hi.tag,
    hi.data⟩, ?_, ?_, Nat.le_refl _, Nat.le_refl _, fun _ _ h => h, Nat.le_refl _, fun _ _ h => h, ?_, ?_, ?_, ?_, ?_, ?_⟩
  · intro n; have := hi.heap.fmem n; have := hhm t n; simp only [G.lose]; grind
  · intro t' n; have := hhm t n; have := hhm t' n; simp only [G.lose]; grind
  · intro t'; have := hi.heap.hnodup t'; simp only [G.lose]; grind
  · intro n; have := hi.heap.raw n; have := hhm t n; simp only [G.lose]; grind
  · intro n; have := hi.heap.fdata n; have := hhm t n; simp only [G.lose]; grind
  · intro n; have := hi.mem n; have := hhm t n; simp only [G.lose]; grind
  · intro t' ht; simp only [G.lose]; grind
  · intro m _ _; exact ⟨rfl, rfl⟩
  · intro m; simp only [G.lose]; grind
  · intro m; have := hhm t m; simp only [G.lose]; grind
  · intro _ m; have := hhm t m; simp only [G.lose]; grind
  · intro m; have := hhm t m; simp only [G.lose]; grind
  · intro _ m; have := hhm t m; simp only [G.lose]; grind
  · intro _ m; have := hhm t m; simp only [G.lose]; grind

/-- Leaking one held node (the payload constructor threw). -/
def G.loseOne (g : G) (t n : Nat) : G :=
  { g with own := upd g.own n .lost, held := upd g.held t ((g.held t).erase n) }

theorem SI.loseOne {cfg : Cfg} {t s g σ} (hi : SI (α := α) cfg s g σ) {n} (hn : n ∈ g.held t) :
    SI cfg s (g.loseOne t n) σ ∧ Guar true t s g s (g.loseOne t n) := by
  have hhm := hi.heap.hmem
  have hthr := (hhm t n).2 hn
  refine ⟨⟨⟨hi.heap.chain, hi.heap.fnodup, ?_, ?_, ?_, ?_, hi.heap.tag, ?_⟩, hi.chain, hi.nodup, ?_, hi.tag,
    hi.data⟩, ?_, ?_, Nat.le_refl _, Nat.le_refl _, fun _ _ h => h, Nat.le_refl _, fun _ _ h => h, ?_, ?_, ?_, ?_, ?_, ?_⟩
  · intro m; have := hi.heap.fmem m; simp only [G.loseOne]; grind
  · intro t' m; have := hhm t' m; have := hi.heap.hnodup t'
    simp only [G.loseOne]; grind [List.Nodup.mem_erase_iff]
  · intro t'; have := hi.heap.hnodup t'; simp only [G.loseOne]; grind [List.Nodup.erase]
  · intro m; have := hi.heap.raw m; simp only [G.loseOne]; grind
  · intro m; have := hi.heap.fdata m; simp only [G.loseOne]; grind
  · intro m; have := hi.mem m; simp only [G.loseOne]; grind
  · intro t' ht; simp only [G.loseOne]; grind
  · intro m _ _; exact ⟨rfl, rfl⟩
  · intro m; simp only [G.loseOne]; grind
  · intro m; simp only [G.loseOne]; grind
  · intro _ m; simp only [G.loseOne]; grind
  · intro m; simp only [G.loseOne]; grind
  · intro _ m; simp only [G.loseOne]; grind
  · intro _ m; simp only [G.loseOne]; grind

/-- Successful compare-exchange of `link_nodes_atomic`. -/
theorem SI.link {cfg : Cfg} {t s g σ} (hi : SI (α := α) cfg s g σ) {top : Nat}
    (hseg : Seg s.heap.next (some top) (g.held t) s.tos.ptr) (hne : g.held t ≠ []) {vs : List α}
    (hd : (g.held t).map s.heap.data = vs.map some) :
    let s' : St α := { s with tos := ⟨some top, s.tos.tag⟩ }
    let g' : G := { own := fun m => if m ∈ g.held t then .str else g.own m, F := g.F,
                    S := g.held t ++ g.S, held := upd g.held t [] }
    SI cfg s' g' (vs ++ σ) ∧ Guar false t s g s' g' := by
  have hhm := hi.heap.hmem
  have hdis : ∀ n ∈ g.held t, n ∉ g.S := fun n hn hS => by
    have := (hhm t n).2 hn; have := (hi.mem n).2 hS; grind
  refine ⟨⟨⟨hi.heap.chain, hi.heap.fnodup, ?_, ?_, ?_, ?_, hi.heap.tag, ?_⟩, hseg.chain hi.chain, ?_, ?_,
    hi.tag, ?_⟩, ?_, ?_, Nat.le_refl _, Nat.le_refl _, fun _ _ h => h, Nat.le_refl _, ?_, ?_, ?_, by simp,
    ?_, ?_, ?_⟩
  · intro n; have := hi.heap.fmem n; have := hhm t n; grind
  · intro t' n; have := hhm t n; have := hhm t' n; grind
  · intro t'; have := hi.heap.hnodup t'; grind
  · intro n; have := hi.heap.raw n; have := hhm t n; grind
  · intro n; have := hi.heap.fdata n; have := hhm t n; grind
  · rw [List.nodup_append]
    exact ⟨hi.heap.hnodup t, hi.nodup, fun a ha b hb hab => by subst hab; exact hdis a ha hb⟩
  · intro n; have := hi.mem n; grind
  · simp [hd, hi.data]
  · intro t' ht; simp [upd_ne _ _ _ ht]
  · intro m _ _; exact ⟨rfl, rfl⟩
  · intro _ n hn; simp [hn]
  · intro m; have := hhm t m; have := hi.mem m; grind
  · intro m; have := hhm t m; have := hi.mem m; grind
  · intro m; have := hhm t m; grind
  · intro _ m; have := hhm t m; grind
  · intro he
    exfalso
    have hm : top ∈ g.S := hi.chain.mem_some (congrArg Tagged.ptr he).symm
    cases hh : g.held t with
    | nil =>
      rw [hh] at hseg hdis
      exact hne hh
    | cons a l =>
      rw [hh] at hseg
      have := hseg.1
      simp at this
      exact hdis top (by simp [hh, this]) hm

/-- Successful compare-exchange of `consume_one`. -/
theorem SI.pop {cfg : Cfg} {t s g σ} (hi : SI (α := α) cfg s g σ) (hh : g.held t = []) {n : Nat}
    (hn : s.tos.ptr = some n) :
    ∃ v σ' S', g.S = n :: S' ∧ s.heap.data n = some v ∧ σ = v :: σ' ∧
    (let s' : St α := { s with tos := ⟨(s.heap.next n).ptr, cfg.nextTag s.tos.tag⟩, tosVer := s.tosVer + 1 }
     let g' : G := { own := upd g.own n (.thr t), F := g.F, S := S', held := upd g.held t [n] }
     SI cfg s' g' σ' ∧ Guar false t s g s' g') := by
  have hhm := hi.heap.hmem
  obtain ⟨S', hS, hc⟩ := hi.chain.head hn
  have hnd := hi.nodup
  have hdt := hi.data
  rw [hS, List.nodup_cons] at hnd
  rw [hS] at hdt
  cases σ with
  | nil => simp at hdt
  | cons v σ' =>
    simp only [List.map_cons, List.cons.injEq] at hdt
    have hstr : g.own n = .str := (hi.mem n).2 (by simp [hS])
    refine ⟨v, σ', S', hS, hdt.1, rfl, ⟨⟨hi.heap.chain, hi.heap.fnodup, ?_, ?_, ?_, ?_, hi.heap.tag, ?_⟩, hc,
      hnd.2, ?_, ?_, hdt.2⟩, ?_, ?_, Nat.le_refl _, Nat.le_refl _, fun _ _ h => h, Nat.le_succ _, ?_, ?_, ?_, by simp,
      ?_, ?_, ?_⟩
    · intro m; have := hi.heap.fmem m; grind
    · intro t' m; have := hhm t m; have := hhm t' m; grind
    · intro t'; have := hi.heap.hnodup t'; grind
    · intro m; have := hi.heap.raw m; grind
    · intro m; have := hi.heap.fdata m; grind
    · intro m; have := hi.mem m; grind
    · simp [Cfg.nextTag, hi.tag]
    · intro t' ht; simp [upd_ne _ _ _ ht]
    · intro m _ _; exact ⟨rfl, rfl⟩
    · intro he; simp at he
    · intro m; grind
    · intro m; grind
    · intro m; grind
    · intro _ m; grind
    · intro he
      exfalso
      have he' := congrArg Tagged.ptr he
      simp only [hn] at he'
      exact hnd.1 (hc.mem_some he')

/-- Successful compare-exchange of `consume_all_atomic`. -/
theorem SI.takeAll {cfg : Cfg} {t s g σ} (hi : SI (α := α) cfg s g σ) (hh : g.held t = []) :
    let s' : St α := { s with tos := ⟨none, cfg.nextTag s.tos.tag⟩, tosVer := s.tosVer + 1 }
    let g' : G := { own := fun m => if m ∈ g.S then .thr t else g.own m, F := g.F, S := [],
                    held := upd g.held t g.S }
    SI cfg s' g' [] ∧ Guar false t s g s' g' := by
  have hhm := hi.heap.hmem
  refine ⟨⟨⟨hi.heap.chain, hi.heap.fnodup, ?_, ?_, ?_, ?_, hi.heap.tag, ?_⟩, rfl,
      List.nodup_nil, ?_, ?_, rfl⟩, ?_, ?_, Nat.le_refl _, Nat.le_refl _, fun _ _ h => h, Nat.le_succ _, ?_, ?_, ?_, by simp,
      ?_, ?_, ?_⟩
  · intro m; have := hi.heap.fmem m; have := hi.mem m; grind
  · intro t' m; have := hhm t m; have := hhm t' m; have := hi.mem m; grind
  · intro t'; have := hi.heap.hnodup t'; have := hi.nodup; grind
  · intro m; have := hi.heap.raw m; have := hi.mem m; grind
  · intro m; have := hi.heap.fdata m; have := hi.mem m; grind
  · intro m; have := hi.mem m; grind
  · simp [Cfg.nextTag, hi.tag]
  · intro t' ht; simp [upd_ne _ _ _ ht]
  · intro m _ _; exact ⟨rfl, rfl⟩
  · intro he; simp at he
  · intro m; have := hhm t m; have := hi.mem m; grind
  · intro m; have := hhm t m; have := hi.mem m; grind
  · intro m; have := hi.mem m; grind
  · intro _ m; have := hi.mem m; grind
  · intro he m
    have he' := congrArg Tagged.ptr he
    have hS : g.S = [] := by
      have hc := hi.chain
      rw [← he'] at hc
      exact hc.eq_nil
    have := hi.mem m
    grind

theorem SI.tosSnap {cfg : Cfg} {s g σ} (hi : SI (α := α) cfg s g σ) : TSnap cfg s g.S s.tosSnap := by
  refine ⟨Nat.le_refl _, hi.tag, fun n hn => ?_⟩
  have hm := hi.chain.mem_some hn
  refine ⟨?_, fun _ => hm⟩
  have := (hi.mem n).2 hm
  exact hi.heap.lt (by grind)

theorem SI.empty_iff {cfg : Cfg} {s g σ} (hi : SI (α := α) cfg s g σ) : s.tos.ptr = none ↔ σ = [] := by
  have hd := hi.data
  constructor
  · intro h
    have hc := hi.chain
    rw [h] at hc
    rw [hc.eq_nil] at hd
    cases σ <;> simp at hd ⊢
  · rintro rfl
    have : g.S = [] := by cases h : g.S <;> simp [h] at hd ⊢
    have hc := hi.chain
    rw [this] at hc
    exact hc

end Stack
end Verif
