import Verif.Alone
import Verif.TextPool

/-!
# The unsynchronized functions of `detail/freelist.hpp` as structured programs (C58)

`allocate_impl_unsafe`, `deallocate_impl_unsafe`, `destruct< false >`, line by line, and how a thread that executes a program alone is related to one
that executes a machine alone.
-/

namespace Verif.Text
open Lin

variable {S L O α : Type} {R : Rep}

/-- `pool_.store( new_pool )`; `removes`: see `Port.casPool`. -/
def Port.storePool (P : Port R α S L) (removes : Bool) : Access S L (SChoice R.K O α) :=
  P.acc fun m v ch =>
    match ch with
    | .go => some ({ m with pool := v.new_pool, poolVer := if removes then m.poolVer + 1 else m.poolVer }, v, .next)
    | _ => none

/-- freelist.hpp:210-216, 571-576. -/
def Port.takeU (P : Port R α S L) : PStm R α S L O :=
  .acc P.readLink ;;
  P.set (fun v => { v with new_pool := R.K.pack v.new_pool_ptr (R.K.next (R.K.tag v.old_pool.v)) }) ;;
  .acc (P.storePool true) ;;
  P.set (fun v => { v with node := R.K.node (R.K.ptr v.old_pool.v) }) ;;
  .ret

/-- `allocate_impl_unsafe< Bounded >()` (freelist.hpp:197-217), `allocate_impl_unsafe()` (freelist.hpp:562-577). -/
def Port.allocateU (P : Port R α S L) (bounded : Bool) : PStm R α S L O :=
  .acc P.loadPool ;;
  P.exhausted bounded ;;
  P.takeU

/-- `deallocate_impl_unsafe( n )` (freelist.hpp:245-255, 602-611). -/
def Port.deallocateU (P : Port R α S L) : PStm R α S L O :=
  .acc P.loadPool ;;
  P.set (fun v => { v with new_pool := R.K.pack (R.K.hnd v.n) (R.K.tag v.old_pool.v) }) ;;
  .acc P.setLink ;;
  .acc (P.storePool false)

/-- `destruct< false >( n )` (freelist.hpp:104-117, 474-489). -/
def Port.destructU (P : Port R α S L) : PStm R α S L O :=
  .acc P.dtor ;;
  .fn P.deallocateU

/-! ### What the programs do -/

variable {P : Port R α S L}

/-- The copies of `pool_` are up to date. -/
def aNow (m : SMem R.K α) : SAPC R.K → Prop
  | .load => True
  | .test o | .cas o _ => m.poolSnap = o

def dNow (m : SMem R.K α) : SDPC R.K → Prop
  | .load => True
  | .set o | .cas o => m.poolSnap = o

theorem aNow.step {b : Bool} {m m' : SMem R.K α} {a a' : SAPC R.K} {ch : SChoice R.K O α} (h : aNow m a)
    (hs : saStep R b m a ch = some (m', .more a')) : aNow m' a' := by
  unfold saStep at hs
  repeat' split at hs
  all_goals simp at hs
  all_goals obtain ⟨rfl, rfl⟩ := hs
  all_goals first | rfl | exact h

theorem dNow.step {m m' : SMem R.K α} {n : Nat} {d d' : SDPC R.K} {ch : SChoice R.K O α} (h : dNow m d)
    (hs : sdStep R m n d ch = some (m', some d')) : dNow m' d' := by
  unfold sdStep at hs
  repeat' split at hs
  all_goals simp at hs
  all_goals obtain ⟨rfl, rfl⟩ := hs
  all_goals first | rfl | exact h

/-- Places in `allocate_impl_unsafe`. -/
inductive AllocUAt (P : Port R α S L) (b : Bool) (ctx : PRest R α S L O) : L → PRest R α S L O → SAPC R.K → Prop where
  | load {l} : AllocUAt P b ctx l (.stm (.acc P.loadPool) :: .stm (P.exhausted b ;; P.takeU) :: .fn :: ctx) .load
  | os {l o} : (P.fl l).old_pool = o → R.K.node (R.K.ptr o.v) = none → (R.fixed || b) = false →
      AllocUAt P b ctx l (.stm (.acc (P.osAllocate fun v n => { v with node := n })) :: .stm .ret :: .stm P.takeU :: .fn :: ctx) (.test o)
  | read {l o n} : (P.fl l).old_pool = o → R.K.node (R.K.ptr o.v) = some n →
      AllocUAt P b ctx l (.stm (.acc P.readLink) :: .stm (P.takeU.drop 1) :: .fn :: ctx) (.test o)
  | cas {l o x n} : (P.fl l).old_pool = o → R.K.node (R.K.ptr o.v) = some n →
      (P.fl l).new_pool = R.K.pack x (R.K.next (R.K.tag o.v)) →
      AllocUAt P b ctx l (.stm (.acc (P.storePool true)) :: .stm (P.takeU.drop 3) :: .fn :: ctx) (.cas o x)

theorem AllocUAt.head {b ctx l k a} (h : AllocUAt (O := O) P b ctx l k a) : ctl l k = none := by cases h <;> rfl

theorem AllocUAt.ne {b ctx l k a} (h : AllocUAt (O := O) P b ctx l k a) : k ≠ [] := by cases h <;> simp

/-- What follows an access of `allocate_impl_unsafe`: `r` is the result of the machine. -/
def AllocUOut (P : Port R α S L) (b : Bool) (ctx : PRest R α S L O) (l : L) (k : PRest R α S L O) (f : Flow) : SARes R.K → Prop
  | .more a => f = .next ∧ ∃ i l' k', i ≤ 10 ∧ P.Same l l' ∧ Reach i l k l' k' ∧
      (AllocUAt P b ctx l' k' a ∨
        (k' = ctx ∧ (P.fl l').node = none ∧ ∃ o, a = .test o ∧ R.K.node (R.K.ptr o.v) = none ∧ (R.fixed || b) = true))
  | .got n => f = .next ∧ ∃ i l', i ≤ 10 ∧ P.Same l l' ∧ Reach i l k l' ctx ∧ (P.fl l').node = some n
  | .null => False
  | .badAlloc => f = .throws ∧ toHandler k = toHandler ctx

/-- An access of `allocate_impl_unsafe` is a step of `saStep`. -/
theorem allocU_access (hf : R.Faithful) {b : Bool} {ctx : PRest R α S L O} {l k a ac s ch s' l' f} (h : AllocUAt P b ctx l (.stm (.acc ac) :: k) a)
    (hw : aNow (P.mem s) a) (hr : ac.run t s l ch = some (s', l', f)) :
    ∃ m r, saStep R b (P.mem s) a ch = some (m, r) ∧ saFresh R (P.mem s) a ∧ s' = P.setMem s m ∧ P.Same l l' ∧ (∀ o, ch ≠ .call o) ∧
      AllocUOut P b ctx l' k f r := by
  cases h with
  | load =>
    simp only [Port.loadPool, Port.acc] at hr
    cases ch <;> simp at hr
    obtain ⟨rfl, rfl, rfl⟩ := hr
    refine ⟨_, .more (.test (P.mem s).poolSnap), rfl, trivial, rfl, ⟨_, rfl⟩, by simp, rfl, ?_⟩
    have hl : (P.fl (P.setFl l { P.fl l with old_pool := (P.mem s).poolSnap })).old_pool = (P.mem s).poolSnap := by rw [P.fl_set]
    generalize P.setFl l { P.fl l with old_pool := (P.mem s).poolSnap } = l₁ at hl ⊢
    rcases hn : R.K.node (R.K.ptr (P.mem s).poolSnap.v) with _ | n
    · rcases hb : (R.fixed || b) with _ | _
      · refine ⟨3, l₁, _, by omega, .refl _, .step rfl (.tt (by simp [hl, hn]) ?_), .inl (.os hl hn hb)⟩
        simp only [hb, Bool.false_eq_true, if_false]
        exact .step rfl .refl
      · refine ⟨5, P.setFl l₁ { P.fl l₁ with node := none }, ctx, by omega, ⟨_, rfl⟩, .step rfl (.tt (by simp [hl, hn]) ?_), .inr ⟨rfl, ?_, _, rfl, hn, rfl⟩⟩
        · simp only [hb, if_true]
          exact .step rfl (.step rfl (.step rfl .refl))
        · rw [P.fl_set]
    · exact ⟨4, l₁, _, by omega, .refl _, .step rfl (.ff (by simp [hl, hn]) (.step rfl (.step rfl .refl))), .inl (.read hl hn)⟩
  | os ho hn hb =>
    subst ho
    simp only [Port.osAllocate, Port.acc] at hr
    cases ch <;> simp at hr
    · obtain ⟨hl, rfl, rfl, rfl⟩ := hr
      refine ⟨_, .got (P.mem s).nalloc, ?_, trivial, rfl, ⟨_, rfl⟩, by simp, rfl, 1, _, by omega, .refl _, .step rfl .refl, by rw [P.fl_set]⟩
      simp [saStep, hn, hb, hl]
    · obtain ⟨rfl, rfl, rfl⟩ := hr
      refine ⟨P.mem s, .badAlloc, ?_, trivial, rfl, ⟨_, rfl⟩, by simp, rfl, rfl⟩
      simp [saStep, hn, hb]
  | @read o n ho hn =>
    subst ho
    simp only [Port.readLink, Port.acc, hn] at hr
    cases ch <;> simp at hr
    · obtain ⟨rfl, rfl, rfl⟩ := hr
      refine ⟨P.mem s, .more (.cas (P.fl l).old_pool (R.K.ptr ((P.mem s).next n))), by simp [saStep, hn], trivial, rfl, ⟨_, rfl⟩, by simp, rfl, 3, _, _,
        by omega, ⟨_, rfl⟩, .step rfl (.step rfl (.step rfl .refl)), .inl (.cas ?_ hn ?_)⟩ <;> simp only [P.fl_set, P.set_set]
    · exact absurd (congrArg SSnap.ver hw) hr.1
  | @cas o x n ho hn hp =>
    subst ho
    simp only [Port.storePool, Port.acc] at hr
    have hv : (P.mem s).pool = (P.fl l).old_pool.v := congrArg SSnap.v hw
    have hfr : saFresh R (P.mem s) (.cas (P.fl l).old_pool x) := by
      have := congrArg SSnap.ver hw
      have := hf.pos
      simp only [saFresh, SMem.poolSnap] at *
      omega
    cases ch <;> simp at hr
    obtain ⟨rfl, rfl, rfl⟩ := hr
    refine ⟨_, .got n, by simp [saStep, hv, hn, hp], hfr, rfl, ⟨_, rfl⟩, by simp, rfl, 3, _, by omega, ⟨_, rfl⟩,
      .step rfl (.step rfl (.step rfl .refl)), ?_⟩
    simp only [P.fl_set, hn]

/-- Places in `deallocate_impl_unsafe( n )`. -/
inductive DeallocUAt (P : Port R α S L) (n : Nat) (ctx : PRest R α S L O) : L → PRest R α S L O → SDPC R.K → Prop where
  | load {l} : (P.fl l).n = some n → DeallocUAt P n ctx l (.stm (.acc P.loadPool) :: .stm (P.deallocateU.drop 1) :: .fn :: ctx) .load
  | set {l o} : (P.fl l).n = some n → (P.fl l).old_pool = o → (P.fl l).new_pool = R.K.pack (R.K.hnd (some n)) (R.K.tag o.v) →
      DeallocUAt P n ctx l (.stm (.acc P.setLink) :: .stm (P.deallocateU.drop 3) :: .fn :: ctx) (.set o)
  | cas {l o} : (P.fl l).n = some n → (P.fl l).old_pool = o → (P.fl l).new_pool = R.K.pack (R.K.hnd (some n)) (R.K.tag o.v) →
      DeallocUAt P n ctx l (.stm (.acc (P.storePool false)) :: .fn :: ctx) (.cas o)

theorem DeallocUAt.head {n ctx l k d} (h : DeallocUAt (O := O) P n ctx l k d) : ctl l k = none := by cases h <;> rfl

theorem DeallocUAt.ne {n ctx l k d} (h : DeallocUAt (O := O) P n ctx l k d) : k ≠ [] := by cases h <;> simp

/-- An access of `deallocate_impl_unsafe` is a step of `sdStep`. -/
theorem deallocU_access {n : Nat} {ctx : PRest R α S L O} {l k d ac s ch s' l' f} (h : DeallocUAt P n ctx l (.stm (.acc ac) :: k) d)
    (hw : dNow (P.mem s) d) (hr : ac.run t s l ch = some (s', l', f)) :
    ∃ m r, sdStep R (P.mem s) n d ch = some (m, r) ∧ s' = P.setMem s m ∧ P.Same l l' ∧ (∀ o, ch ≠ .call o) ∧ f = .next ∧
      match r with
      | some d' => ∃ i l'' k', i ≤ 10 ∧ P.Same l' l'' ∧ Reach i l' k l'' k' ∧ DeallocUAt P n ctx l'' k' d'
      | none => Reach 1 l' k l' ctx := by
  cases h with
  | load hn =>
    simp only [Port.loadPool, Port.acc] at hr
    cases ch <;> simp at hr
    obtain ⟨rfl, rfl, rfl⟩ := hr
    exact ⟨P.mem s, some (.set (P.mem s).poolSnap), rfl, rfl, ⟨_, rfl⟩, by simp, rfl, 3, _, _, by omega, ⟨_, rfl⟩, .step rfl (.step rfl (.step rfl .refl)),
      .set (by simp only [P.fl_set]; exact hn) (by simp only [P.fl_set]) (by simp only [P.fl_set, hn])⟩
  | set hn ho hp =>
    subst ho
    simp only [Port.setLink, Port.acc, hn] at hr
    cases ch <;> simp at hr
    obtain ⟨rfl, rfl, rfl⟩ := hr
    refine ⟨_, some (.cas (P.fl l).old_pool), rfl, rfl, ⟨_, rfl⟩, by simp, rfl, 0, l, _, by omega, ?_, ?_, .cas hn rfl hp⟩
    · exact ⟨P.fl l, by rw [P.set_set, P.set_fl]⟩
    · rw [P.set_fl]; exact .refl
  | cas hn ho hp =>
    subst ho
    have hv : (P.mem s).pool = (P.fl l).old_pool.v := congrArg SSnap.v hw
    simp only [Port.storePool, Port.acc] at hr
    cases ch <;> simp at hr
    obtain ⟨rfl, rfl, rfl⟩ := hr
    exact ⟨_, none, by simp [sdStep, hv, hp], rfl, ⟨_, rfl⟩, by simp, rfl, .step rfl .refl⟩

/-- An access of `allocate_impl_unsafe` can be made, as long as the allocator has memory. -/
theorem AllocUAt.enabled {b : Bool} {ctx : PRest R α S L O} {l k a ac} (h : AllocUAt P b ctx l (.stm (.acc ac) :: k) a) {s : S}
    (hroom : R.fixed = true ∨ (P.mem s).nalloc < R.limit) : ∃ y, ac.run t s l .go = some y := by
  cases h with
  | load => exact ⟨_, rfl⟩
  | os ho hn hb =>
    have : (P.mem s).nalloc < R.limit := by
      rcases hroom with h | h
      · simp [h] at hb
      · exact h
    simp [Port.osAllocate, Port.acc, this]
  | read ho hn => subst ho; simp [Port.readLink, Port.acc, hn]
  | cas => exact ⟨_, rfl⟩

theorem DeallocUAt.enabled {n : Nat} {ctx : PRest R α S L O} {l k d ac} (h : DeallocUAt P n ctx l (.stm (.acc ac) :: k) d) {s : S} :
    ∃ y, ac.run t s l .go = some y := by
  cases h with
  | load => exact ⟨_, rfl⟩
  | set hn => simp [Port.setLink, Port.acc, hn]
  | cas => exact ⟨_, rfl⟩

/-! ### Running alone -/

section
variable {Ch Ret PC : Type} {P : Program S L Ch O Ret} {m : Mach S PC Ch O Ret} {okCall : S → O → Prop} {okm : S → PC → Ch → Prop}
  {sp : Ch → Bool} {err : PC} {I : Nat → S → PC → Prop} {At : L → Rest S L Ch → PC → Prop} {B : Nat}

/-- The machine makes, without changing the shared state, some steps, and then `Q` holds. -/
def Later (m : Mach S PC Ch O Ret) (okm : S → PC → Ch → Prop) (t : Nat) (s : S) (Q : PC → Prop) (p : PC) : Prop :=
  ∃ j p', Alone m okm t j s p [] s p' ∧ Q p'

theorem Later.now {t : Nat} {s : S} {Q : PC → Prop} {p : PC} (h : Q p) : Later m okm t s Q p := ⟨0, p, .nil _ _, h⟩

theorem Later.one {t : Nat} {s : S} {Q : PC → Prop} {p p' : PC} {ch} (hok : okm s p ch) (hs : m.step t s p ch = some (s, p', none)) (h : Q p') :
    Later m okm t s Q p := ⟨1, p', by simpa using Alone.cons hs hok (.nil _ _), h⟩

theorem Later.reach {t : Nat} {s : S} {l l' : L} {k k' : Rest S L Ch} {p : PC} {a b n : Nat} (h : Reach a l k l' k')
    (hl : Later m okm t s (Leads b At l' k') p) (hn : a + b ≤ n := by decide) : Later m okm t s (Leads n At l k) p := by
  obtain ⟨j, p', h1, h2⟩ := hl
  exact ⟨j, p', h1, Leads.reach h h2 hn⟩

theorem Soon.later {Q : PC → Prop} {p : PC} (h : Soon m okm sp Q p) (t : Nat) (s : S) : Later m okm t s Q p := by
  rcases h with h | ⟨p', h1, h2⟩
  · exact .now h
  · obtain ⟨⟨ch, -, h3, h4⟩, -⟩ := h1 t s
    exact .one h3 h4 h2

/-- As `Refines`, for a thread that is alone: the steps of the machine that correspond to none of the program may depend on the shared state. -/
structure RefinesAlone (P : Program S L Ch O Ret) (m : Mach S PC Ch O Ret) (okCall : S → O → Prop) (okm : S → PC → Ch → Prop)
    (err : PC) (I : Nat → S → PC → Prop) (At : L → Rest S L Ch → PC → Prop) (B : Nat) : Prop where
  call : ∀ t s o l a, P.body t o = some (l, a) → okCall s o →
    ∃ ch p, okm s m.idle ch ∧ m.step t s m.idle ch = some (s, p, some (.inv t o)) ∧ Later m okm t s (Leads B At l [.stm a]) p
  head : ∀ l k p, At l k p → ctl l k = none
  access : ∀ t s l a k p ch s' l' f, I t s p → At l (.stm (.acc a) :: k) p → a.ok s l ch = true → a.run t s l ch = some (s', l', f) →
    ∃ ch' p', okm s p ch' ∧ m.step t s p ch' = some (s', p', none) ∧ f.ifUb (p' = err) (Later m okm t s' (Leads B At l' (f.rest k)) p')
  fin : ∀ l p, At l [] p → p = m.ret (P.result l)
  res : ∀ t s r, ∃ ch, okm s (m.ret r) ch ∧ m.step t s (m.ret r) ch = some (s, m.idle, some (.res t r))
  env : ∀ t s p ch s', P.env t s ch = some s' → okm s p ch ∧ m.step t s p ch = some (s', p, none)

theorem Refines.toAlone (hr : Refines P m okCall okm sp err I At B) : RefinesAlone P m okCall okm err I At B where
  call t s o l a hb hc := by
    obtain ⟨ch, p, -, h1, h2, h3⟩ := hr.call t s o l a hb hc
    exact ⟨ch, p, h1, h2, h3.later t s⟩
  head := hr.head
  access t s l a k p ch s' l' f hI hat hok hrun := by
    obtain ⟨p', h1, h2, h3⟩ := hr.access t s l a k p ch s' l' f hI hat hok hrun
    refine ⟨ch, p', h1, h2, ?_⟩
    cases f
    · exact Soon.later h3 t s'
    · exact Soon.later h3 t s'
    · exact h3
  fin := hr.fin
  res t s r := by
    obtain ⟨ch, -, h⟩ := hr.res t s r
    exact ⟨ch, h⟩
  env := hr.env

/-- One step of the program. -/
theorem RefinesAlone.step (hr : RefinesAlone P m okCall okm err I At B) {t s q ch s' q' e p n} (hI : I t s p) (hq : PCRel m err At n q p)
    (hs : P.mach.step t s q ch = some (s', q', e)) (hok : Program.ok okCall s q ch) :
    ∃ p' n' a, PCRel m err At n' q' p' ∧ Alone m okm t a s p e.toList s' p' ∧ n' + 1 ≤ n + (B + 2) * a := by
  have pay : ∀ {j}, B + 1 + 1 ≤ n + (B + 2) * (1 + j) := by intro j; rw [Nat.mul_add]; omega
  simp only [Program.mach] at hs
  split at hs
  · rename_i o
    simp at hs
    obtain ⟨l, a, h1, rfl, rfl, rfl⟩ := hs
    obtain ⟨ch', p', h3, h4, j, p₁, h5, h6⟩ := hr.call t s o l a h1 hok
    cases (show p = m.idle from hq)
    exact ⟨p₁, B + 1, 1 + j, ⟨B, rfl, h6⟩, by simpa [Nat.add_comm] using Alone.cons h4 h3 h5, pay⟩
  · simp at hs
    obtain ⟨rfl, rfl, rfl⟩ := hs
    obtain ⟨n', rfl, hl⟩ : ∃ n', n = n' + 1 ∧ Leads n' At _ _ p := hq
    exact ⟨p, n', 0, hr.fin _ p (Leads.stuck hl rfl), .nil _ _, by simp⟩
  · simp at hs
    obtain ⟨l, k, h1, rfl, rfl, rfl⟩ := hs
    obtain ⟨n', rfl, i, l₁, k₁, h0, h2, h3⟩ : ∃ n', n = n' + 1 ∧ Leads n' At _ _ p := hq
    cases h2 with
    | refl => rw [hr.head _ _ _ h3] at h1; simp at h1
    | step h4 h5 => rw [h4] at h1; cases h1; exact ⟨p, n', 0, ⟨n' - 1, by omega, _, _, _, by omega, h5, h3⟩, .nil _ _, by simp⟩
  · rename_i l a k ch
    obtain ⟨n'', rfl, hl⟩ : ∃ n', n = n' + 1 ∧ Leads n' At _ _ p := hq
    have h1 := Leads.stuck hl rfl
    have go : ∀ {s' l' f}, a.run t s l ch = some (s', l', f) → f ≠ .ub → ∃ p' n' a', PCRel m err At n' (.run l' (f.rest k)) p' ∧
        Alone m okm t a' s p [] s' p' ∧ n' + 1 ≤ n'' + 1 + (B + 2) * a' := by
      intro s' l' f h2 hf
      obtain ⟨ch', p', h3, h4, h5⟩ := hr.access t s l a k p ch _ _ _ hI h1 hok h2
      obtain ⟨j, p₁, h6, h7⟩ := (show Later m okm t s' (Leads B At l' (f.rest k)) p' by cases f <;> simp_all [Flow.ifUb])
      exact ⟨p₁, B + 1, 1 + j, ⟨B, rfl, h7⟩, by simpa [Nat.add_comm] using Alone.cons h4 h3 h6, pay⟩
    split at hs
    · simp at hs
    · simp at hs
      obtain ⟨rfl, rfl, rfl⟩ := hs
      exact go (by assumption) (by simp)
    · simp at hs
      obtain ⟨rfl, rfl, rfl⟩ := hs
      exact go (by assumption) (by simp)
    · rename_i h2
      simp at hs
      obtain ⟨rfl, rfl, rfl⟩ := hs
      obtain ⟨ch', p', h3, h4, h5⟩ := hr.access t s l a k p ch _ _ _ hI h1 hok h2
      exact ⟨p', 0, 1, h5, by simpa using Alone.cons h4 h3 (.nil _ _), by omega⟩
  · rename_i r
    simp at hs
    obtain ⟨rfl, rfl, rfl⟩ := hs
    obtain ⟨ch', h2, h3⟩ := hr.res t s r
    cases (show p = m.ret r from hq)
    exact ⟨m.idle, 0, 1, rfl, by simpa using Alone.cons h3 h2 (.nil _ _), by omega⟩
  · simp at hs
    obtain ⟨h1, rfl, rfl⟩ := hs
    obtain ⟨h2, h3⟩ := hr.env t s p _ _ h1
    exact ⟨p, n, 1, hq, by simpa using Alone.cons h3 h2 (.nil _ _), by omega⟩
  · simp at hs

/-- A thread that executes the program alone does what a thread does that executes the machine alone, and the numbers of steps differ by a constant factor. -/
theorem RefinesAlone.alone (hr : RefinesAlone P m okCall okm err I At B) {t : Nat} {s₀ : S} {p₀ : PC}
    (hI : ∀ k h s p, Alone m okm t k s₀ p₀ h s p → I t s p) {q₀ : TPC S L Ch Ret} {n₀ : Nat} (h₀ : PCRel m err At n₀ q₀ p₀) {k h s' q'}
    (hx : Alone P.mach (Program.ok okCall) t k s₀ q₀ h s' q') :
    ∃ k' p' n, Alone m okm t k' s₀ p₀ h s' p' ∧ PCRel m err At n q' p' ∧ k + n ≤ n₀ + (B + 2) * k' := by
  induction hx generalizing p₀ n₀ with
  | nil s q => exact ⟨0, p₀, n₀, .nil _ _, h₀, by omega⟩
  | @cons k s q ch s₁ q₁ e h s'' q'' hs hok _ ih =>
    obtain ⟨p₁, n₁, a, h1, h2, h3⟩ := hr.step (hI _ _ _ _ (.nil _ _)) h₀ hs hok
    obtain ⟨k', p', n, h4, h5, h6⟩ := ih (fun k h s p hx => hI _ _ _ _ (h2.trans hx)) h1
    refine ⟨_, p', n, h2.trans h4, h5, ?_⟩
    rw [Nat.mul_add]
    omega
end

end Verif.Text
