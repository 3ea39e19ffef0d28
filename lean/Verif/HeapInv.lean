import Verif.Heap

/-!
# Freelist invariant (proof)

Ownership-based invariant of the node heap and preservation by each step of `allocate_impl` and
`deallocate_impl`. The ghost ownership map says who may touch a node.
-/

namespace Verif
open Lin

variable {α Op : Type}

/-- Who owns a node: not obtained yet, the freelist, the data structure, a thread, nobody (leaked). -/
inductive Owner where
  | raw | free | str | thr (t : Nat) | lost
deriving DecidableEq

/-- `l` is the list of nodes reached from `p` by following `next` until null. -/
def Chain (next : Nat → Tagged) : Option Nat → List Nat → Prop
  | p, [] => p = none
  | p, n :: l => p = some n ∧ Chain next (next n).ptr l

theorem Chain.congr {next next' : Nat → Tagged} {p l} (h : Chain next p l)
    (e : ∀ n ∈ l, (next' n).ptr = (next n).ptr) : Chain next' p l := by
  induction l generalizing p with
  | nil => exact h
  | cons n l ih =>
    refine ⟨h.1, ?_⟩
    rw [e n (by simp)]
    exact ih h.2 fun m hm => e m (by simp [hm])

theorem Chain.head {next : Nat → Tagged} {p l} (h : Chain next p l) {n} (e : p = some n) :
    ∃ l', l = n :: l' ∧ Chain next (next n).ptr l' := by
  cases l with
  | nil => simp [Chain] at h; simp [h] at e
  | cons m l =>
    obtain ⟨h1, h2⟩ := h
    rw [h1] at e; cases e
    exact ⟨l, rfl, h2⟩

theorem Chain.eq_nil {next : Nat → Tagged} {l} (h : Chain next none l) : l = [] := by
  cases l with
  | nil => rfl
  | cons m l => simp [Chain] at h

theorem Chain.mem_some {next : Nat → Tagged} {p l} (h : Chain next p l) {n} (e : p = some n) : n ∈ l := by
  obtain ⟨l', rfl, _⟩ := h.head e; simp

theorem Chain.unique {next : Nat → Tagged} {p l l'} (h : Chain next p l) (h' : Chain next p l') : l = l' := by
  induction l generalizing p l' with
  | nil => cases h; exact (h'.eq_nil).symm
  | cons n l ih =>
    obtain ⟨l'', rfl, h2⟩ := h'.head h.1
    rw [ih h.2 h2]

/-- `l` is the list of nodes passed when following `next` from `p` until `q`. -/
def Seg (next : Nat → Tagged) : Option Nat → List Nat → Option Nat → Prop
  | p, [], q => p = q
  | p, n :: l, q => p = some n ∧ Seg next (next n).ptr l q

theorem Seg.congr {next next' : Nat → Tagged} {p l q} (h : Seg next p l q)
    (e : ∀ n ∈ l, (next' n).ptr = (next n).ptr) : Seg next' p l q := by
  induction l generalizing p with
  | nil => exact h
  | cons n l ih =>
    refine ⟨h.1, ?_⟩
    rw [e n (by simp)]
    exact ih h.2 fun m hm => e m (by simp [hm])

theorem Seg.chain {next : Nat → Tagged} {p l q m} (h : Seg next p l q) (h' : Chain next q m) :
    Chain next p (l ++ m) := by
  induction l generalizing p with
  | nil => simp only [Seg] at h; subst h; exact h'
  | cons n l ih => exact ⟨h.1, ih h.2⟩

theorem Chain.seg {next : Nat → Tagged} {p l} (h : Chain next p l) : Seg next p l none := by
  induction l generalizing p with
  | nil => exact h
  | cons n l ih => exact ⟨h.1, ih h.2⟩

/-- Redirecting the last node of a segment. -/
theorem Seg.setLast {next : Nat → Tagged} {p l q} (h : Seg next p l q) {e : Nat}
    (he : l.getLast? = some e) (hnd : l.Nodup) (x : Tagged) : Seg (upd next e x) p l x.ptr := by
  induction l generalizing p with
  | nil => simp at he
  | cons n l ih =>
    refine ⟨h.1, ?_⟩
    cases l with
    | nil =>
      simp at he; subst he; simp [Seg]
    | cons m l =>
      have he' : (m :: l).getLast? = some e := by simpa [List.getLast?_cons_cons] using he
      have hne : n ≠ e := by
        intro h'; subst h'
        have := List.mem_of_getLast? he'
        simp at hnd; simp at this; grind
      rw [upd_ne _ _ _ hne]
      exact ih h.2 he' (List.nodup_cons.1 hnd).2

structure HInv (cfg : Cfg) (h : Heap α) (own : Nat → Owner) (F : List Nat) (held : Nat → List Nat) :
    Prop where
  chain : Chain h.next h.pool.ptr F
  fnodup : F.Nodup
  fmem : ∀ n, own n = .free ↔ n ∈ F
  hmem : ∀ t n, own n = .thr t ↔ n ∈ held t
  hnodup : ∀ t, (held t).Nodup
  raw : ∀ n, own n = .raw ↔ h.nalloc ≤ n
  tag : h.pool.tag = h.poolVer % cfg.M
  fdata : ∀ n, own n = .free ∨ own n = .raw → h.data n = none

/-- What a freelist step of thread `t` guarantees to everybody else. -/
structure HStep (cfg : Cfg) (t : Nat) (h : Heap α) (own : Nat → Owner) (F : List Nat)
    (held : Nat → List Nat) (h' : Heap α) (own' : Nat → Owner) (F' : List Nat) (held' : Nat → List Nat) :
    Prop where
  inv : HInv cfg h' own' F' held'
  others : ∀ t', t' ≠ t → held' t' = held t'
  frame : ∀ m, own m ≠ .thr t → own' m ≠ .thr t →
    h'.next m = h.next m ∧ h'.data m = h.data m ∧ h'.nver m = h.nver m
  str : ∀ m, own' m = .str ↔ own m = .str
  nalloc : h.nalloc ≤ h'.nalloc
  pver : h.poolVer ≤ h'.poolVer
  pF : h'.poolVer = h.poolVer → ∀ n ∈ F, n ∈ F'
  lost : ∀ m, own' m = .lost ↔ own m = .lost
  tr : ∀ m, own' m = own m ∨ own m = .thr t ∨ own' m = .thr t
  fp : h'.pool = h.pool → ∀ m, own' m = .free ↔ own m = .free

/-- A snapshot of `pool_`. -/
def PSnap (cfg : Cfg) (h : Heap α) (F : List Nat) (o : Snap) : Prop :=
  o.ver ≤ h.poolVer ∧ o.v.tag = o.ver % cfg.M ∧
    ∀ n, o.v.ptr = some n → n < h.nalloc ∧ (o.ver = h.poolVer → n ∈ F)

def ALocal (cfg : Cfg) (h : Heap α) (F : List Nat) : APC → Prop
  | .load => True
  | .test o => PSnap cfg h F o
  | .cas o nx => PSnap cfg h F o ∧ ∃ n, o.v.ptr = some n ∧ (o.ver = h.poolVer → (h.next n).ptr = nx)

def DLocal (h : Heap α) (n : Nat) : DPC → Prop
  | .load => True
  | .set _ => True
  | .cas o => (h.next n).ptr = o.v.ptr

theorem HInv.poolSnap {cfg : Cfg} {h : Heap α} {own F held} (hi : HInv cfg h own F held) :
    PSnap cfg h F h.poolSnap := by
  refine ⟨Nat.le_refl _, hi.tag, fun n hn => ?_⟩
  have hm := hi.chain.mem_some hn
  refine ⟨?_, fun _ => hm⟩
  have := (hi.fmem n).2 hm
  have h2 := (hi.raw n)
  grind

theorem HInv.lt {cfg : Cfg} {h : Heap α} {own F held} (hi : HInv cfg h own F held) {n}
    (hn : own n ≠ .raw) : n < h.nalloc := by
  have := hi.raw n; grind

theorem HStep.refl {cfg : Cfg} {t} {h : Heap α} {own F held} (hi : HInv cfg h own F held) :
    HStep cfg t h own F held h own F held :=
  ⟨hi, fun _ _ => rfl, fun _ _ _ => ⟨rfl, rfl, rfl⟩, fun _ => Iff.rfl, Nat.le_refl _, Nat.le_refl _,
    fun _ _ hn => hn, fun _ => Iff.rfl, fun _ => .inl rfl, fun _ _ => Iff.rfl⟩

/-- Versions with the same tag within one window are equal. -/
theorem ver_eq_of_fresh {M a b : Nat} (hle : b ≤ a) (hf : M = 0 ∨ a < b + M) (ht : a % M = b % M) :
    a = b := by
  rcases hf with rfl | hf
  · simpa using ht
  · have h1 := Nat.div_add_mod a M
    have h2 := Nat.div_add_mod b M
    have hM : 0 < M := by omega
    have : a / M = b / M := by
      have hd : b / M ≤ a / M := Nat.div_le_div_right hle
      rcases Nat.lt_or_ge (b / M) (a / M) with hlt | hge
      · have : M * (b / M + 1) ≤ M * (a / M) := Nat.mul_le_mul_left _ hlt
        rw [Nat.mul_add] at this
        have := Nat.mod_lt a hM
        omega
      · omega
    rw [this] at h1; omega

theorem HInv.malloc {cfg : Cfg} {t : Nat} {h : Heap α} {own F held} (hi : HInv cfg h own F held) :
    HStep cfg t h own F held h.malloc (upd own h.nalloc (.thr t)) F (upd held t (h.nalloc :: held t)) := by
  have hraw : own h.nalloc = .raw := (hi.raw _).2 (Nat.le_refl _)
  have hnF : ∀ n ∈ F, n ≠ h.nalloc := by
    intro n hn he; have := (hi.fmem n).2 hn; grind
  have hnh : ∀ t', h.nalloc ∉ held t' := by
    intro t' hn; have := (hi.hmem t' _).2 hn; grind
  refine ⟨⟨?_, hi.fnodup, ?_, ?_, ?_, ?_, hi.tag, ?_⟩, ?_, ?_, ?_, ?_, ?_, ?_, ?_, ?_, ?_⟩
  · exact hi.chain.congr fun n hn => by simp [Heap.malloc, upd_ne _ _ _ (hnF n hn)]
  · intro n; have := hi.fmem n; grind
  · intro t' n; have := hi.hmem t' n; grind
  · intro t'; have := hi.hnodup t'; have := hnh t'; grind
  · intro n; have := hi.raw n; simp only [Heap.malloc]; grind
  · intro n; have := hi.fdata n; simp only [Heap.malloc]; grind
  · grind
  · intro m; simp only [Heap.malloc]; grind
  · grind
  · simp [Heap.malloc]
  · simp [Heap.malloc]
  · intro _ n hn; exact hn
  · grind
  · grind
  · grind

theorem aStep_inv {cfg : Cfg} {t : Nat} {b : Bool} {h : Heap α} {own F held}
    (hi : HInv cfg h own F held) {a : APC} (hl : ALocal cfg h F a) (hf : aFresh cfg h a)
    {ch : Choice Op} {h' r} (hs : aStep cfg b h a ch = some (h', r)) :
    match r with
    | .more a' => h' = h ∧ ALocal cfg h F a'
    | .null => h' = h ∧ (cfg.fixed || b) = true
    | .badAlloc => h' = h ∧ (cfg.fixed || b) = false
    | .got n => ∃ F', HStep cfg t h own F held h' (upd own n (.thr t)) F' (upd held t (n :: held t)) ∧
        (own n = .raw ∨ own n = .free) ∧ h'.data n = none ∧
        ∀ m, m ≠ n → h'.next m = h.next m ∧ h'.data m = h.data m ∧ h'.nver m = h.nver m := by
  cases a with
  | load =>
    cases ch <;> simp [aStep] at hs
    obtain ⟨rfl, rfl⟩ := hs
    exact ⟨rfl, hi.poolSnap⟩
  | test o =>
    simp only [aStep] at hs
    split at hs
    · split at hs
      · split at hs <;> simp at hs
        obtain ⟨rfl, rfl⟩ := hs
        exact ⟨rfl, by assumption⟩
      · rename_i hb
        split at hs <;> simp at hs
        · obtain ⟨rfl, rfl⟩ := hs
          have hraw : own h.nalloc = .raw := (hi.raw _).2 (Nat.le_refl _)
          refine ⟨F, hi.malloc, Or.inl hraw, by simp [Heap.malloc], fun m hm => ?_⟩
          simp [Heap.malloc, upd_ne _ _ _ hm]
        · obtain ⟨rfl, rfl⟩ := hs
          exact ⟨rfl, by simpa using hb⟩
    · rename_i n hn
      have hl' : PSnap cfg h F o := hl
      split at hs
      · simp at hs; obtain ⟨rfl, rfl⟩ := hs
        exact ⟨rfl, hl', n, hn, fun _ => rfl⟩
      · split at hs
        · simp at hs
        · simp at hs; obtain ⟨rfl, rfl⟩ := hs
          exact ⟨rfl, hl', n, hn, fun he => by simp_all⟩
      · simp at hs
  | cas o nx =>
    obtain ⟨⟨hv, htag, hp⟩, n, hn, hnx⟩ := hl
    cases ch with
    | spur =>
      simp [aStep] at hs; obtain ⟨rfl, rfl⟩ := hs; exact ⟨rfl, hi.poolSnap⟩
    | go =>
      simp only [aStep] at hs
      split at hs
      · rename_i heq
        simp only [hn, Option.some.injEq, Prod.mk.injEq] at hs
        obtain ⟨rfl, rfl⟩ := hs
        have hver : h.poolVer = o.ver :=
          ver_eq_of_fresh hv hf (by rw [← hi.tag, ← htag, heq])
        have hptr : h.pool.ptr = some n := by rw [heq, hn]
        obtain ⟨F', rfl, hc'⟩ := hi.chain.head hptr
        have hfree : own n = .free := (hi.fmem n).2 (by simp)
        have hnd := hi.fnodup
        rw [List.nodup_cons] at hnd
        refine ⟨F', ?_, Or.inr hfree, hi.fdata n (Or.inl hfree), fun m _ => ⟨rfl, rfl, rfl⟩⟩
        refine ⟨⟨?_, hnd.2, ?_, ?_, ?_, ?_, ?_, ?_⟩, ?_, ?_, ?_, ?_, ?_, ?_, ?_, ?_, ?_⟩
        · rw [hnx hver.symm] at hc'; exact hc'
        · intro m; have := hi.fmem m; grind
        · intro t' m; have := hi.hmem t' m; grind
        · intro t'; have := hi.hnodup t'; have := hi.hmem t' n; grind
        · intro m; have := hi.raw m; grind
        · simp only [Cfg.nextTag, htag, hver]; simp
        · intro m; have := hi.fdata m; grind
        · grind
        · intro m; simp
        · grind
        · simp
        · simp
        · intro he; simp at he
        · grind
        · grind
        · intro he
          exfalso
          have he' : nx = some n := by rw [← hptr]; exact congrArg Tagged.ptr he
          rw [hnx hver.symm, he'] at hc'
          exact hnd.1 (hc'.mem_some rfl)
      · simp at hs; obtain ⟨rfl, rfl⟩ := hs; exact ⟨rfl, hi.poolSnap⟩
    | _ => simp [aStep] at hs

theorem dStep_inv {cfg : Cfg} {t : Nat} {h : Heap α} {own F held}
    (hi : HInv cfg h own F held) {n : Nat} (hown : n ∈ held t) (hdata : h.data n = none)
    {d : DPC} (hl : DLocal h n d) {ch : Choice Op} {h' r} (hs : dStep h n d ch = some (h', r)) :
    match r with
    | some d' => HStep cfg t h own F held h' own F held ∧ DLocal h' n d' ∧
        (∀ m, m ≠ n → h'.next m = h.next m) ∧ h'.data = h.data ∧ h'.nver = h.nver
    | none => ∃ F', HStep cfg t h own F held h' (upd own n .free) F' (upd held t ((held t).erase n)) ∧
        h'.next = h.next ∧ h'.data = h.data ∧ h'.nver = h.nver := by
  have hthr := (hi.hmem t n).2 hown
  cases d with
  | load =>
    cases ch <;> simp [dStep] at hs
    obtain ⟨rfl, rfl⟩ := hs
    exact ⟨.refl hi, trivial, fun _ _ => rfl, rfl, rfl⟩
  | set o =>
    cases ch <;> simp [dStep] at hs
    obtain ⟨rfl, rfl⟩ := hs
    refine ⟨⟨⟨?_, hi.fnodup, hi.fmem, hi.hmem, hi.hnodup, hi.raw, hi.tag, hi.fdata⟩, fun _ _ => rfl, ?_,
      fun _ => Iff.rfl, Nat.le_refl _, Nat.le_refl _, fun _ _ h => h, fun _ => Iff.rfl, fun _ => .inl rfl,
      fun _ _ => Iff.rfl⟩, ?_, ?_, rfl, rfl⟩
    · exact hi.chain.congr fun m hm => by
        have := (hi.fmem m).2 hm
        simp only [Heap.setNextPtr]; grind
    · intro m; simp only [Heap.setNextPtr]; grind
    · simp [DLocal, Heap.setNextPtr]
    · intro m hm; simp [Heap.setNextPtr, upd_ne _ _ _ hm]
  | cas o =>
    cases ch with
    | spur =>
      simp [dStep] at hs; obtain ⟨rfl, rfl⟩ := hs
      exact ⟨.refl hi, trivial, fun _ _ => rfl, rfl, rfl⟩
    | go =>
      simp only [dStep] at hs
      split at hs
      · rename_i heq
        simp at hs; obtain ⟨rfl, rfl⟩ := hs
        have hnF : n ∉ F := fun hm => by have := (hi.fmem n).2 hm; grind
        refine ⟨n :: F, ?_, rfl, rfl, rfl⟩
        refine ⟨⟨?_, ?_, ?_, ?_, ?_, ?_, ?_, ?_⟩, ?_, ?_, ?_, ?_, ?_, ?_, ?_, ?_, ?_⟩
        · refine ⟨rfl, ?_⟩
          have : (h.next n).ptr = h.pool.ptr := by rw [heq]; exact hl
          rw [this]; exact hi.chain
        · exact List.nodup_cons.2 ⟨hnF, hi.fnodup⟩
        · intro m; have := hi.fmem m; grind
        · intro t' m; have := hi.hmem t' m; have := hi.hnodup t'; grind [List.Nodup.mem_erase_iff]
        · intro t'; have := hi.hnodup t'; grind [List.Nodup.erase]
        · intro m; have := hi.raw m; grind
        · simp only; rw [← heq]; exact hi.tag
        · intro m; have := hi.fdata m; grind
        · grind
        · intro m; simp
        · grind
        · simp
        · simp
        · intro _ m hm; simp [hm]
        · grind
        · grind
        · intro he
          exfalso
          exact hnF (hi.chain.mem_some (congrArg Tagged.ptr he).symm)
      · simp at hs; obtain ⟨rfl, rfl⟩ := hs
        exact ⟨.refl hi, trivial, fun _ _ => rfl, rfl, rfl⟩
    | _ => simp [dStep] at hs

/-- The pool and allocation snapshots of another thread survive a step. -/
theorem PSnap.mono {cfg : Cfg} {h h' : Heap α} {F F' : List Nat} {o : Snap} (hp : PSnap cfg h F o)
    (hn : h.nalloc ≤ h'.nalloc) (hv : h.poolVer ≤ h'.poolVer)
    (hF : h'.poolVer = h.poolVer → ∀ n ∈ F, n ∈ F') : PSnap cfg h' F' o := by
  obtain ⟨h1, h2, h3⟩ := hp
  refine ⟨by omega, h2, fun n hn' => ⟨?_, fun he => ?_⟩⟩
  · have := (h3 n hn').1; omega
  · have : h'.poolVer = h.poolVer := by omega
    exact hF this n ((h3 n hn').2 (by omega))

theorem ALocal.mono {cfg : Cfg} {h h' : Heap α} {F F' : List Nat} {a : APC} (hp : ALocal cfg h F a)
    (hn : h.nalloc ≤ h'.nalloc) (hv : h.poolVer ≤ h'.poolVer)
    (hF : h'.poolVer = h.poolVer → ∀ n ∈ F, n ∈ F' ∧ (h'.next n).ptr = (h.next n).ptr) :
    ALocal cfg h' F' a := by
  cases a with
  | load => trivial
  | test o => exact PSnap.mono hp hn hv fun he n hm => (hF he n hm).1
  | cas o nx =>
    obtain ⟨h1, n, h2, h3⟩ := hp
    refine ⟨h1.mono hn hv fun he n hm => (hF he n hm).1, n, h2, fun he => ?_⟩
    have : h'.poolVer = h.poolVer := by have := h1.1; omega
    rw [(hF this n ((h1.2.2 n h2).2 (by omega))).2]
    exact h3 (by omega)

/-- Adding a fresh node to the freelist (constructor, `reserve<false>`). -/
theorem HInv.addNode {cfg : Cfg} {h : Heap α} {own F held} (hi : HInv cfg h own F held) :
    HInv cfg (h.malloc.deallocUnsafe h.nalloc) (upd own h.nalloc .free) (h.nalloc :: F) held := by
  have hraw : own h.nalloc = .raw := (hi.raw _).2 (Nat.le_refl _)
  have hnF : ∀ n ∈ F, n ≠ h.nalloc := by
    intro n hn he; have := (hi.fmem n).2 hn; grind
  refine ⟨⟨rfl, ?_⟩, ?_, ?_, ?_, hi.hnodup, ?_, hi.tag, ?_⟩
  · simp only [Heap.deallocUnsafe, Heap.setNextPtr, Heap.malloc, upd_self]
    exact hi.chain.congr fun n hn => by simp [upd_ne _ _ _ (hnF n hn)]
  · exact List.nodup_cons.2 ⟨fun hm => hnF _ hm rfl, hi.fnodup⟩
  · intro n; have := hi.fmem n; grind
  · intro t n; have := hi.hmem t n; grind
  · intro n; have := hi.raw n; simp only [Heap.deallocUnsafe, Heap.setNextPtr, Heap.malloc]; grind
  · intro n; have := hi.fdata n; simp only [Heap.deallocUnsafe, Heap.setNextPtr, Heap.malloc]; grind

theorem Heap.addNodes_nalloc (h : Heap α) (k : Nat) : (h.addNodes k).nalloc = h.nalloc + k := by
  induction k with
  | zero => rfl
  | succ k ih =>
    simp only [Heap.addNodes, Heap.deallocUnsafe, Heap.setNextPtr, Heap.malloc, ih]; omega

/-- Nodes `a + k - 1, ..., a`. -/
def downFrom (a : Nat) : Nat → List Nat
  | 0 => []
  | k + 1 => (a + k) :: downFrom a k

theorem mem_downFrom {a k n : Nat} : n ∈ downFrom a k ↔ a ≤ n ∧ n < a + k := by
  induction k with
  | zero => simp [downFrom]
  | succ k ih => simp [downFrom, ih]; omega

theorem length_downFrom {a k : Nat} : (downFrom a k).length = k := by
  induction k with
  | zero => rfl
  | succ k ih => simp [downFrom, ih]

theorem HInv.addNodes {cfg : Cfg} {h : Heap α} {own F held} (hi : HInv cfg h own F held) (k : Nat) :
    HInv cfg (h.addNodes k) (fun n => if h.nalloc ≤ n ∧ n < h.nalloc + k then .free else own n)
      (downFrom h.nalloc k ++ F) held := by
  induction k with
  | zero =>
    have : (fun n => if h.nalloc ≤ n ∧ n < h.nalloc + 0 then Owner.free else own n) = own := by
      funext n; rw [if_neg]; omega
    rw [this]; exact hi
  | succ k ih =>
    have h1 := ih.addNode
    rw [Heap.addNodes_nalloc] at h1
    have : upd (fun n => if h.nalloc ≤ n ∧ n < h.nalloc + k then Owner.free else own n) (h.nalloc + k) .free =
        (fun n => if h.nalloc ≤ n ∧ n < h.nalloc + (k + 1) then Owner.free else own n) := by
      funext n; simp only [upd_apply]; grind
    rw [this] at h1
    simp only [Heap.addNodes, Heap.addNodes_nalloc]
    exact h1

def initOwn (n : Nat) : Nat → Owner := fun m => if m < n then .free else .raw

theorem HInv.initial (cfg : Cfg) (n : Nat) :
    HInv cfg (Heap.initial n : Heap α) (initOwn n) (downFrom 0 n) (fun _ => []) := by
  have h0 : HInv cfg (Heap.empty : Heap α) (fun _ => .raw) [] (fun _ => []) := by
    refine ⟨rfl, List.nodup_nil, ?_, ?_, fun _ => List.nodup_nil, ?_, ?_, ?_⟩ <;> simp [Heap.empty]
  have h1 := h0.addNodes n
  simp only [Heap.empty, List.append_nil, Nat.zero_le, true_and, Nat.zero_add] at h1
  exact h1

end Verif
