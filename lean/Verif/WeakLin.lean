import Verif.Lin

/-!
# Linearizability with respect to happens-before (specification) and a proof rule for it

Under a weak memory model the calls of a history are ordered by happens-before rather than by real time. The
first part is the definition. The second part is a *canonical weak object*: it keeps all states it has ever
had; calls that change the state act on the newest state, calls that do not may act on an older state, but
not on one older than what the caller is known to have seen. No code of /repo is modelled here.
-/

namespace Verif.Lin

variable {Op Ret : Type}

/-! ## Specification -/

/-- `L` linearizes `h` in an order that respects `hb`, where `hb j i` says that the response at position `j`
happens before the invocation at position `i`. The special case `hb j i := j < i` is `Linearization`. -/
structure HbLinearization (S : Spec Op Ret) (hb : Nat → Nat → Prop) (h : History Op Ret)
    (L : List (Nat × Op × Ret)) : Prop where
  /-- every call is placed at most once -/
  nodup : (L.map (·.1)).Nodup
  /-- only calls of the history are placed -/
  invoked : ∀ x ∈ L, ∃ t, h[x.1]? = some (.inv t x.2.1)
  /-- every completed call is placed, with the result it returned -/
  complete : ∀ i j r, Returned h i j r → ∃ o, (i, o, r) ∈ L
  /-- if the return of `b` happens before the call of `a`, then `a` is not before `b` -/
  order : L.Pairwise fun a b => ¬ ∃ j r, Returned h b.1 j r ∧ hb j a.1
  /-- the order is a legal run of the sequential specification -/
  legal : ∃ σ, Run S S.init L σ

def HbLinearizable (S : Spec Op Ret) (hb : Nat → Nat → Prop) (h : History Op Ret) : Prop :=
  ∃ L, HbLinearization S hb h L

theorem HbLinearization.linearization {S : Spec Op Ret} {hb : Nat → Nat → Prop} {h : History Op Ret} {L}
    (hl : HbLinearization S hb h L) (hlt : ∀ j i t r t' o, h[j]? = some (.res t r) → h[i]? = some (.inv t' o) →
      j < i → hb j i) : Linearization S h L := by
  refine ⟨hl.nodup, hl.invoked, hl.complete, hl.order.imp_of_mem ?_, hl.legal⟩
  rintro a b ha _ hab ⟨j, r, hr, hj⟩
  obtain ⟨t, o, _, _, h3, _⟩ := id hr
  obtain ⟨t', ht'⟩ := hl.invoked a ha
  exact hab ⟨j, r, hr, hlt _ _ _ _ _ _ h3 ht' hj⟩

theorem Linearization.hb {S : Spec Op Ret} {hb : Nat → Nat → Prop} {h : History Op Ret} {L}
    (hl : Linearization S h L) (hlt : ∀ j i, hb j i → j < i) : HbLinearization S hb h L :=
  ⟨hl.nodup, hl.invoked, hl.complete, hl.realtime.imp fun hab ⟨j, r, hr, hj⟩ => hab ⟨j, r, hr, hlt _ _ hj⟩,
    hl.legal⟩

/-! ## The canonical weak object -/

/-- Status of a thread: no call; a call that has not taken effect, by a thread that had seen state number `b`
when calling; or a call that has taken effect at state number `k`. -/
inductive WStatus (Op Ret : Type) where
  | idle
  | pend (o : Op) (b : Nat)
  | done (o : Op) (r : Ret) (k : Nat)

structure WCState (S : Spec Op Ret) where
  /-- all states so far -/
  st : Nat → S.State
  /-- number of the newest one -/
  top : Nat
  status : Nat → WStatus Op Ret

/-- Steps of the canonical weak object. Events are stamped with the number of the newest state the thread has
seen. -/
inductive WMove (S : Spec Op Ret) : WCState S → Option (Event Op Ret × Nat) → WCState S → Prop where
  | stay (c) : WMove S c none c
  | inv {c t o b} : c.status t = .idle → b ≤ c.top →
      WMove S c (some (.inv t o, b)) { c with status := upd c.status t (.pend o b) }
  | lin {c t o b r σ'} : c.status t = .pend o b → S.step (c.st c.top) o r σ' →
      WMove S c none ⟨upd c.st (c.top + 1) σ', c.top + 1, upd c.status t (.done o r (c.top + 1))⟩
  | obs {c t o b r k} : c.status t = .pend o b → b ≤ k → k ≤ c.top → S.step (c.st k) o r (c.st k) →
      WMove S c none { c with status := upd c.status t (.done o r k) }
  | res {c t o r k s} : c.status t = .done o r k → k ≤ s →
      WMove S c (some (.res t r, s)) { c with status := upd c.status t .idle }

def WCState.initial (S : Spec Op Ret) : WCState S := ⟨fun _ => S.init, 0, fun _ => .idle⟩

inductive WReach (S : Spec Op Ret) : List (Event Op Ret × Nat) → WCState S → Prop where
  | init : WReach S [] (WCState.initial S)
  | move {h c e c'} : WReach S h c → WMove S c e c' → WReach S (h ++ e.toList) c'

/-! ## Every history of the canonical weak object is linearizable in the order of the stamps -/

/-- The events without stamps. -/
def evs {A : Type} (tr : List (Event Op Ret × A)) : History Op Ret := tr.map (·.1)

/-- The stamp at a position. -/
def stampAt (tr : List (Event Op Ret × Nat)) (i : Nat) : Nat := (tr[i]?.map (·.2)).getD 0

section proof
variable {S : Spec Op Ret}

/-- The placed calls: observers `obs k` of state `k` after the call `wr k` that created state `k`. -/
def order (obs wr : Nat → List (Nat × Op × Ret)) : Nat → List (Nat × Op × Ret)
  | 0 => obs 0
  | k + 1 => order obs wr k ++ (wr (k + 1) ++ obs (k + 1))

theorem mem_order {obs wr : Nat → List (Nat × Op × Ret)} {K x} :
    x ∈ order obs wr K ↔ ∃ k ≤ K, x ∈ obs k ∨ (0 < k ∧ x ∈ wr k) := by
  induction K with
  | zero => simp [order]
  | succ K ih =>
    simp only [order, List.mem_append, ih]
    constructor
    · rintro (⟨k, h1, h2⟩ | h | h)
      · exact ⟨k, by omega, h2⟩
      · exact ⟨K + 1, by omega, .inr ⟨by omega, h⟩⟩
      · exact ⟨K + 1, by omega, .inl h⟩
    · rintro ⟨k, h1, h2⟩
      by_cases hk : k = K + 1
      · subst hk
        rcases h2 with h2 | ⟨_, h2⟩
        · exact .inr (.inr h2)
        · exact .inr (.inl h2)
      · exact .inl ⟨k, by omega, h2⟩

theorem order_congr {obs obs' wr wr' : Nat → List (Nat × Op × Ret)} {K} (h1 : ∀ k ≤ K, obs' k = obs k)
    (h2 : ∀ k ≤ K, wr' k = wr k) : order obs' wr' K = order obs wr K := by
  induction K with
  | zero => simp [order, h1]
  | succ K ih =>
    simp only [order]
    rw [ih (fun k hk => h1 k (by omega)) (fun k hk => h2 k (by omega)), h1 _ (Nat.le_refl _), h2 _ (Nat.le_refl _)]

theorem order_obs {obs wr : Nat → List (Nat × Op × Ret)} {K k x} (hk : k ≤ K) :
    (order (upd obs k (obs k ++ [x])) wr K).Perm (x :: order obs wr K) := by
  induction K with
  | zero =>
    have : k = 0 := by omega
    subst this
    simp only [order, upd_self]
    exact List.perm_append_comm
  | succ K ih =>
    simp only [order]
    by_cases h : k = K + 1
    · subst h
      rw [order_congr (obs := obs) (obs' := upd obs (K + 1) _) (wr' := wr)
        (fun k hk => upd_ne _ _ _ (by omega)) (fun _ _ => rfl)]
      simp only [upd_self]
      have : (order obs wr K ++ (wr (K + 1) ++ (obs (K + 1) ++ [x]))) =
        (order obs wr K ++ (wr (K + 1) ++ obs (K + 1))) ++ [x] := by simp
      rw [this]
      exact List.perm_append_comm
    · rw [upd_ne _ _ _ (Ne.symm h)]
      exact (ih (by omega)).append_right _

/-- Invariant. `pos i` is the number of the state at which the call invoked at `i` was placed. -/
structure WGood (tr : List (Event Op Ret × Nat)) (c : WCState S) (obs wr : Nat → List (Nat × Op × Ret))
    (pos : Nat → Nat) : Prop where
  init : c.st 0 = S.init
  obsStep : ∀ k ≤ c.top, ∀ x ∈ obs k, S.step (c.st k) x.2.1 x.2.2 (c.st k)
  wrStep : ∀ k < c.top, ∃ x, wr (k + 1) = [x] ∧ S.step (c.st k) x.2.1 x.2.2 (c.st (k + 1))
  nodup : ((order obs wr c.top).map (·.1)).Nodup
  invoked : ∀ x ∈ order obs wr c.top, ∃ t, (evs tr)[x.1]? = some (.inv t x.2.1)
  complete : ∀ i j r, Returned (evs tr) i j r → ∃ o, (i, o, r) ∈ order obs wr c.top
  obsPos : ∀ k ≤ c.top, ∀ x ∈ obs k, pos x.1 = k ∧ stampAt tr x.1 ≤ k
  wrPos : ∀ k ≤ c.top, 0 < k → ∀ x ∈ wr k, pos x.1 = k ∧ stampAt tr x.1 < k
  retPos : ∀ x ∈ order obs wr c.top, ∀ j r, Returned (evs tr) x.1 j r → pos x.1 ≤ stampAt tr j
  pair : ∀ k ≤ c.top, (obs k).Pairwise fun a b => ¬ ∃ j r, Returned (evs tr) b.1 j r ∧ j < a.1
  idle : ∀ t, c.status t = .idle → ∀ i o, ¬ Pending (evs tr) t i o
  pend : ∀ t o b, c.status t = .pend o b →
    ∃ i, Pending (evs tr) t i o ∧ (∀ x ∈ order obs wr c.top, x.1 ≠ i) ∧ stampAt tr i = b ∧ b ≤ c.top
  done : ∀ t o r k, c.status t = .done o r k →
    ∃ i, Pending (evs tr) t i o ∧ (i, o, r) ∈ order obs wr c.top ∧ pos i = k
  ret : ∀ x ∈ order obs wr c.top, (∃ j, Returned (evs tr) x.1 j x.2.2) ∨
    ∃ t k, Pending (evs tr) t x.1 x.2.1 ∧ c.status t = .done x.2.1 x.2.2 k

theorem evs_length {A : Type} (tr : List (Event Op Ret × A)) : (evs tr).length = tr.length := by simp [evs]

theorem evs_snoc {A : Type} (tr : List (Event Op Ret × A)) (e : Event Op Ret) (s : A) :
    evs (tr ++ [(e, s)]) = evs tr ++ [e] := by simp [evs]

theorem stampAt_snoc_lt {tr : List (Event Op Ret × Nat)} {e i} (hi : i < tr.length) :
    stampAt (tr ++ [e]) i = stampAt tr i := by
  simp [stampAt, List.getElem?_append_left hi]

theorem stampAt_snoc_eq {tr : List (Event Op Ret × Nat)} {e : Event Op Ret} {s} :
    stampAt (tr ++ [(e, s)]) tr.length = s := by
  simp [stampAt]

theorem Run.snoc {σ σ' σ'' : S.State} {L i o r} (h : Run S σ L σ') (hs : S.step σ' o r σ'') :
    Run S σ (L ++ [(i, o, r)]) σ'' := by
  induction h with
  | nil => exact .cons hs (.nil _)
  | cons h1 _ ih => exact .cons h1 (ih hs)

theorem Run.obs {σ σ' : S.State} {L M} (h : Run S σ L σ') (hs : ∀ x ∈ M, S.step σ' x.2.1 x.2.2 σ') :
    Run S σ (L ++ M) σ' := by
  induction M generalizing L with
  | nil => simpa using h
  | cons x M ih =>
    have : L ++ x :: M = (L ++ [x]) ++ M := by simp
    rw [this]
    exact ih (h.snoc (hs x (by simp))) fun y hy => hs y (by simp [hy])

variable {tr : List (Event Op Ret × Nat)} {c c' : WCState S} {obs wr : Nat → List (Nat × Op × Ret)} {pos : Nat → Nat}

theorem WGood.run (g : WGood tr c obs wr pos) : ∀ k ≤ c.top, Run S S.init (order obs wr k) (c.st k) := by
  intro k
  induction k with
  | zero =>
    intro _
    have := Run.obs (S := S) (M := obs 0) (.nil (c.st 0)) (g.obsStep 0 (by omega))
    rw [g.init] at this ⊢
    simpa [order] using this
  | succ k ih =>
    intro hk
    obtain ⟨x, hx, hst⟩ := g.wrStep k (by omega)
    have h1 := (ih (by omega)).snoc (i := x.1) hst
    have h2 := h1.obs (M := obs (k + 1)) (g.obsStep _ hk)
    simpa [order, hx] using h2

theorem WGood.sorted (g : WGood tr c obs wr pos) : ∀ k ≤ c.top,
    (order obs wr k).Pairwise fun a b => ¬ ∃ j r, Returned (evs tr) b.1 j r ∧ j < a.1 ∧
      stampAt tr j ≤ stampAt tr a.1 := by
  intro k
  induction k with
  | zero =>
    intro _
    exact (g.pair 0 (by omega)).imp fun hab ⟨j, r, h1, h2, _⟩ => hab ⟨j, r, h1, h2⟩
  | succ k ih =>
    intro hk
    have hret : ∀ b, b ∈ wr (k + 1) ∨ b ∈ obs (k + 1) → ∀ j r, Returned (evs tr) b.1 j r →
        k + 1 ≤ stampAt tr j := by
      intro b hb j r hr
      have hm : b ∈ order obs wr c.top := mem_order.2 ⟨k + 1, hk, by rcases hb with hb | hb <;> simp_all⟩
      have := g.retPos b hm j r hr
      rcases hb with hb | hb
      · have := (g.wrPos _ hk (by omega) b hb).1; omega
      · have := (g.obsPos _ hk b hb).1; omega
    obtain ⟨y, hy, _⟩ := g.wrStep k (by omega)
    simp only [order, hy, List.pairwise_append, List.singleton_append, List.pairwise_cons]
    refine ⟨ih (by omega), ⟨?_, ?_⟩, ?_⟩
    · rintro b hb ⟨j, r, h1, _, h3⟩
      have := hret b (.inr hb) j r h1
      have := (g.wrPos _ hk (by omega) y (by simp [hy])).2
      omega
    · exact (g.pair _ hk).imp fun hab ⟨j, r, h1, h2, _⟩ => hab ⟨j, r, h1, h2⟩
    · rintro a ha b hb ⟨j, r, h1, _, h3⟩
      have := hret b (by simpa [hy] using hb) j r h1
      obtain ⟨k', hk', h⟩ := mem_order.1 ha
      rcases h with h | ⟨h0, h⟩
      · have := (g.obsPos k' (by omega) a h).2; omega
      · have := (g.wrPos k' (by omega) h0 a h).2; omega

theorem WGood.lt (g : WGood tr c obs wr pos) {x} (hx : x ∈ order obs wr c.top) : x.1 < tr.length := by
  obtain ⟨t, ht⟩ := g.invoked x hx
  have := lt_of_getElem? ht
  rwa [evs_length] at this

theorem WGood.initial : WGood [] (WCState.initial S) (fun _ => []) (fun _ => []) (fun _ => 0) := by
  refine ⟨rfl, by simp, by simp [WCState.initial], by simp [WCState.initial, order],
    by simp [WCState.initial, order], ?_, by simp, by simp, by simp [WCState.initial, order], by simp, ?_,
    by simp [WCState.initial], by simp [WCState.initial], by simp [WCState.initial, order]⟩
  · intro i j r hr; have := hr.lt; simp [evs] at this
  · intro t _ i o hp; have := hp.1; simp [evs] at this

theorem WGood.inv (g : WGood tr c obs wr pos) {t o b} (ht : c.status t = .idle) (hb : b ≤ c.top) :
    WGood (tr ++ [(.inv t o, b)]) { c with status := upd c.status t (.pend o b) } obs wr pos := by
  have hst : ∀ x ∈ order obs wr c.top, stampAt (tr ++ [(Event.inv t o, b)]) x.1 = stampAt tr x.1 :=
    fun x hx => stampAt_snoc_lt (g.lt hx)
  have hR : ∀ {i j r}, Returned (evs tr ++ [.inv t o]) i j r ↔ Returned (evs tr) i j r := Returned.snoc_inv
  have hlen := evs_length tr
  refine ⟨g.init, g.obsStep, g.wrStep, g.nodup, ?_, ?_, ?_, ?_, ?_, ?_, ?_, ?_, ?_, ?_⟩
  · intro x hx
    obtain ⟨t', h'⟩ := g.invoked x hx
    have := g.lt hx
    exact ⟨t', by rw [evs_snoc, getElem?_snoc, if_pos (by omega)]; exact h'⟩
  · intro i j r hr
    rw [evs_snoc] at hr
    exact g.complete i j r (hR.1 hr)
  · intro k hk x hx
    have h1 := g.obsPos k hk x hx
    exact ⟨h1.1, by rw [hst x (mem_order.2 ⟨k, hk, .inl hx⟩)]; exact h1.2⟩
  · intro k hk h0 x hx
    have h1 := g.wrPos k hk h0 x hx
    exact ⟨h1.1, by rw [hst x (mem_order.2 ⟨k, hk, .inr ⟨h0, hx⟩⟩)]; exact h1.2⟩
  · intro x hx j r hr
    rw [evs_snoc] at hr
    have hr' := hR.1 hr
    rw [stampAt_snoc_lt (by have := hr'.lt; omega)]
    exact g.retPos x hx j r hr'
  · intro k hk
    rw [evs_snoc]
    exact (g.pair k hk).imp fun hab ⟨j, r, h1, h2⟩ => hab ⟨j, r, hR.1 h1, h2⟩
  · intro t' ht' i o' hp
    rw [evs_snoc] at hp
    by_cases h : t' = t
    · subst h; simp at ht'
    · simp only [upd_ne _ _ _ h] at ht'
      have hl : i < (evs tr).length := by
        have h1 := hp.1
        simp only [getElem?_snoc] at h1
        split at h1
        · assumption
        · split at h1
          · simp at h1; exact absurd h1.1.symm h
          · simp at h1
      exact g.idle t' ht' i o' (hp.unsnoc hl).1
  · intro t' o' b' hs
    rw [evs_snoc]
    by_cases h : t' = t
    · subst h
      simp only [upd_self, WStatus.pend.injEq] at hs
      obtain ⟨rfl, rfl⟩ := hs
      refine ⟨tr.length, ⟨by simp [hlen], ?_⟩, ?_, stampAt_snoc_eq, hb⟩
      · intro k e hk he
        have := lt_of_getElem? he
        simp [hlen] at this; omega
      · intro x hx he
        have := g.lt hx; omega
    · simp only [upd_ne _ _ _ h] at hs
      obtain ⟨i, h1, h2, h3, h4⟩ := g.pend t' o' b' hs
      exact ⟨i, h1.snoc_ne (by simpa [Event.tid] using Ne.symm h), h2,
        by rw [stampAt_snoc_lt (by have := lt_of_getElem? h1.1; omega)]; exact h3, h4⟩
  · intro t' o' r k hs
    rw [evs_snoc]
    by_cases h : t' = t
    · subst h; simp at hs
    · simp only [upd_ne _ _ _ h] at hs
      obtain ⟨i, h1, h2⟩ := g.done t' o' r k hs
      exact ⟨i, h1.snoc_ne (by simpa [Event.tid] using Ne.symm h), h2⟩
  · intro x hx
    rw [evs_snoc]
    rcases g.ret x hx with ⟨j, h1⟩ | ⟨t', k, h1, h2⟩
    · exact .inl ⟨j, h1.snoc⟩
    · have h : t' ≠ t := by rintro rfl; rw [ht] at h2; cases h2
      exact .inr ⟨t', k, h1.snoc_ne (by simpa [Event.tid] using Ne.symm h), by simpa [upd_ne _ _ _ h] using h2⟩

theorem WGood.res (g : WGood tr c obs wr pos) {t o r k s} (ht : c.status t = .done o r k) (hk : k ≤ s) :
    WGood (tr ++ [(.res t r, s)]) { c with status := upd c.status t .idle } obs wr pos := by
  have hlen := evs_length tr
  obtain ⟨i₀, hp₀, hm₀, hpos₀⟩ := g.done t o r k ht
  have hst : ∀ x ∈ order obs wr c.top, stampAt (tr ++ [(Event.res t r, s)]) x.1 = stampAt tr x.1 :=
    fun x hx => stampAt_snoc_lt (g.lt hx)
  have hnew : ∀ {i j r'}, Returned (evs tr ++ [.res t r]) i j r' →
      Returned (evs tr) i j r' ∨ (i = i₀ ∧ j = tr.length ∧ r' = r) := by
    intro i j r' hr
    by_cases hj : j < (evs tr).length
    · exact .inl ((Returned.snoc_old hj).1 hr)
    · obtain ⟨h1, h2, o', h3⟩ := hr.snoc_new hj
      exact .inr ⟨(h3.unique hp₀).1, by omega, h2⟩
  refine ⟨g.init, g.obsStep, g.wrStep, g.nodup, ?_, ?_, ?_, ?_, ?_, ?_, ?_, ?_, ?_, ?_⟩
  · intro x hx
    obtain ⟨t', h'⟩ := g.invoked x hx
    have := g.lt hx
    exact ⟨t', by rw [evs_snoc, getElem?_snoc, if_pos (by omega)]; exact h'⟩
  · intro i j r' hr
    rw [evs_snoc] at hr
    rcases hnew hr with h1 | ⟨rfl, _, rfl⟩
    · exact g.complete i j r' h1
    · exact ⟨o, hm₀⟩
  · intro k hk x hx
    have h1 := g.obsPos k hk x hx
    exact ⟨h1.1, by rw [hst x (mem_order.2 ⟨k, hk, .inl hx⟩)]; exact h1.2⟩
  · intro k hk h0 x hx
    have h1 := g.wrPos k hk h0 x hx
    exact ⟨h1.1, by rw [hst x (mem_order.2 ⟨k, hk, .inr ⟨h0, hx⟩⟩)]; exact h1.2⟩
  · intro x hx j r' hr
    rw [evs_snoc] at hr
    rcases hnew hr with h1 | ⟨h1, rfl, _⟩
    · rw [stampAt_snoc_lt (by have := h1.lt; omega)]
      exact g.retPos x hx j r' h1
    · rw [stampAt_snoc_eq, h1, hpos₀]; exact hk
  · intro k hk
    rw [evs_snoc]
    refine (g.pair k hk).imp_of_mem ?_
    rintro a b ha hb hab ⟨j, r', h1, h2⟩
    rcases hnew h1 with h1 | ⟨_, rfl, _⟩
    · exact hab ⟨j, r', h1, h2⟩
    · have := g.lt (mem_order.2 ⟨k, hk, .inl ha⟩); omega
  · intro t' ht' i o' hp
    rw [evs_snoc] at hp
    have hl : i < (evs tr).length := by
      have h1 := hp.1
      simp only [getElem?_snoc] at h1
      split at h1
      · assumption
      · split at h1 <;> simp at h1
    have h1 := hp.unsnoc hl
    by_cases h : t' = t
    · subst h; exact h1.2 rfl
    · simp only [upd_ne _ _ _ h] at ht'
      exact g.idle t' ht' i o' h1.1
  · intro t' o' b' hs
    rw [evs_snoc]
    by_cases h : t' = t
    · subst h; simp at hs
    · simp only [upd_ne _ _ _ h] at hs
      obtain ⟨i, h1, h2, h3, h4⟩ := g.pend t' o' b' hs
      exact ⟨i, h1.snoc_ne (by simpa [Event.tid] using Ne.symm h), h2,
        by rw [stampAt_snoc_lt (by have := lt_of_getElem? h1.1; omega)]; exact h3, h4⟩
  · intro t' o' r' k hs
    rw [evs_snoc]
    by_cases h : t' = t
    · subst h; simp at hs
    · simp only [upd_ne _ _ _ h] at hs
      obtain ⟨i, h1, h2⟩ := g.done t' o' r' k hs
      exact ⟨i, h1.snoc_ne (by simpa [Event.tid] using Ne.symm h), h2⟩
  · intro x hx
    rw [evs_snoc]
    rcases g.ret x hx with ⟨j, h1⟩ | ⟨t', k', h1, h2⟩
    · exact .inl ⟨j, h1.snoc⟩
    · by_cases h : t' = t
      · subst h
        rw [ht] at h2
        simp only [WStatus.done.injEq] at h2
        obtain ⟨_, rfl, _⟩ := h2
        exact .inl ⟨_, h1.returned _⟩
      · exact .inr ⟨t', k', h1.snoc_ne (by simpa [Event.tid] using Ne.symm h),
          by simpa [upd_ne _ _ _ h] using h2⟩

/-- Placing a pending call. -/
theorem WGood.place (g : WGood tr c obs wr pos) {t o b r k i} (ht : c.status t = .pend o b)
    {obs' wr' : Nat → List (Nat × Op × Ret)} (hp : Pending (evs tr) t i o)
    (htop : c.top ≤ c'.top) (hnew : ∀ x ∈ order obs wr c.top, x.1 ≠ i) (hstat : c'.status = upd c.status t (.done o r k))
    (hperm : (order obs' wr' c'.top).Perm ((i, o, r) :: order obs wr c.top))
    (h0 : c'.st 0 = S.init)
    (h1 : ∀ k ≤ c'.top, ∀ x ∈ obs' k, S.step (c'.st k) x.2.1 x.2.2 (c'.st k))
    (h2 : ∀ k < c'.top, ∃ x, wr' (k + 1) = [x] ∧ S.step (c'.st k) x.2.1 x.2.2 (c'.st (k + 1)))
    (h3 : ∀ k' ≤ c'.top, ∀ x ∈ obs' k', upd pos i k x.1 = k' ∧ stampAt tr x.1 ≤ k')
    (h4 : ∀ k' ≤ c'.top, 0 < k' → ∀ x ∈ wr' k', upd pos i k x.1 = k' ∧ stampAt tr x.1 < k')
    (h5 : ∀ k ≤ c'.top, (obs' k).Pairwise fun a b => ¬ ∃ j r, Returned (evs tr) b.1 j r ∧ j < a.1) :
    WGood tr c' obs' wr' (upd pos i k) := by
  have hmem : ∀ x, x ∈ order obs' wr' c'.top ↔ x = (i, o, r) ∨ x ∈ order obs wr c.top :=
    fun x => by rw [hperm.mem_iff, List.mem_cons]
  refine ⟨h0, h1, h2, ?_, ?_, ?_, h3, h4, ?_, h5, ?_, ?_, ?_, ?_⟩
  · have := (hperm.map (·.1)).nodup_iff
    rw [this, List.map_cons, List.nodup_cons]
    refine ⟨?_, g.nodup⟩
    intro hm
    obtain ⟨x, hx, he⟩ := List.mem_map.1 hm
    exact hnew x hx he
  · intro x hx
    rcases (hmem x).1 hx with rfl | hx
    · exact ⟨t, hp.1⟩
    · exact g.invoked x hx
  · intro i' j r' hr
    obtain ⟨o', h⟩ := g.complete i' j r' hr
    exact ⟨o', (hmem _).2 (.inr h)⟩
  · intro x hx j r' hr
    rcases (hmem x).1 hx with rfl | hx
    · exact absurd hr (hp.not_returned j r')
    · rw [upd_ne _ _ _ (hnew x hx)]
      exact g.retPos x hx j r' hr
  · intro t' ht'
    rw [hstat] at ht'
    by_cases h : t' = t
    · subst h; simp at ht'
    · exact g.idle t' (by simpa [upd_ne _ _ _ h] using ht')
  · intro t' o' b' hs
    rw [hstat] at hs
    by_cases h : t' = t
    · subst h; simp at hs
    · obtain ⟨i', h6, h7, h8, h9⟩ := g.pend t' o' b' (by simpa [upd_ne _ _ _ h] using hs)
      refine ⟨i', h6, fun x hx => ?_, h8, Nat.le_trans h9 htop⟩
      rcases (hmem x).1 hx with rfl | hx
      · rintro rfl; exact hp.other h _ h6
      · exact h7 x hx
  · intro t' o' r' k' hs
    rw [hstat] at hs
    by_cases h : t' = t
    · subst h
      simp only [upd_self, WStatus.done.injEq] at hs
      obtain ⟨rfl, rfl, rfl⟩ := hs
      exact ⟨i, hp, (hmem _).2 (.inl rfl), by simp⟩
    · obtain ⟨i', h6, h7, h8⟩ := g.done t' o' r' k' (by simpa [upd_ne _ _ _ h] using hs)
      exact ⟨i', h6, (hmem _).2 (.inr h7), by rw [upd_ne _ _ _ (hnew _ h7)]; exact h8⟩
  · intro x hx
    rcases (hmem x).1 hx with rfl | hx
    · exact .inr ⟨t, k, hp, by simp [hstat]⟩
    · rcases g.ret x hx with h | ⟨t', k', h6, h7⟩
      · exact .inl h
      · have h : t' ≠ t := by rintro rfl; rw [ht] at h7; cases h7
        exact .inr ⟨t', k', h6, by rw [hstat]; simpa [upd_ne _ _ _ h] using h7⟩

theorem WGood.move (g : WGood tr c obs wr pos) {e} (m : WMove S c e c') :
    ∃ obs' wr' pos', WGood (tr ++ e.toList) c' obs' wr' pos' := by
  cases m with
  | stay => exact ⟨obs, wr, pos, by simpa using g⟩
  | inv ht _ => exact ⟨obs, wr, pos, g.inv ht (by assumption)⟩
  | res ht hk => exact ⟨obs, wr, pos, g.res ht hk⟩
  | @obs t o b r k ht hb hk hs =>
    obtain ⟨i, hp, hnew, hst, _⟩ := g.pend t o b ht
    refine ⟨upd obs k (obs k ++ [(i, o, r)]), wr, upd pos i k, ?_⟩
    simp only [Option.toList, List.append_nil]
    have hmo : ∀ k' ≤ c.top, ∀ x ∈ obs k', x.1 ≠ i := fun k' hk' x hx => hnew x (mem_order.2 ⟨k', hk', .inl hx⟩)
    refine g.place ht hp (Nat.le_refl _) hnew rfl (order_obs hk) g.init ?_ g.wrStep ?_ ?_ ?_
    · intro k' hk' x hx
      by_cases h : k' = k
      · subst h
        simp only [upd_self, List.mem_append, List.mem_singleton] at hx
        rcases hx with hx | rfl
        · exact g.obsStep _ hk' x hx
        · exact hs
      · exact g.obsStep _ hk' x (by simpa [upd_ne _ _ _ h] using hx)
    · intro k' hk' x hx
      have hold : x ∈ obs k' → upd pos i k x.1 = k' ∧ stampAt tr x.1 ≤ k' := fun hx => by
        rw [upd_ne _ _ _ (hmo k' hk' x hx)]; exact g.obsPos k' hk' x hx
      by_cases h : k' = k
      · subst h
        simp only [upd_self, List.mem_append, List.mem_singleton] at hx
        rcases hx with hx | rfl
        · exact hold hx
        · exact ⟨by simp, by rw [hst]; exact hb⟩
      · exact hold (by simpa [upd_ne _ _ _ h] using hx)
    · intro k' hk' h0 x hx
      rw [upd_ne _ _ _ (hnew x (mem_order.2 ⟨k', hk', .inr ⟨h0, hx⟩⟩))]
      exact g.wrPos k' hk' h0 x hx
    · intro k' hk'
      by_cases h : k' = k
      · subst h
        simp only [upd_self, List.pairwise_append]
        refine ⟨g.pair _ hk', by simp, ?_⟩
        rintro a _ b' hb' ⟨j, r', hr, _⟩
        simp at hb'; subst hb'
        exact hp.not_returned _ _ hr
      · rw [upd_ne _ _ _ h]; exact g.pair _ hk'
  | @lin t o b r σ' ht hs =>
    obtain ⟨i, hp, hnew, hst, hbt⟩ := g.pend t o b ht
    refine ⟨upd obs (c.top + 1) [], upd wr (c.top + 1) [(i, o, r)], upd pos i (c.top + 1), ?_⟩
    simp only [Option.toList, List.append_nil]
    have hmo : ∀ k' ≤ c.top, ∀ x ∈ obs k', x.1 ≠ i := fun k' hk' x hx => hnew x (mem_order.2 ⟨k', hk', .inl hx⟩)
    refine g.place ht hp (Nat.le_succ _) hnew rfl ?_ ?_ ?_ ?_ ?_ ?_ ?_
    · simp only [order, upd_self, List.append_nil]
      rw [order_congr (obs := obs) (wr := wr) (fun k hk => upd_ne _ _ _ (by omega))
        (fun k hk => upd_ne _ _ _ (by omega))]
      exact List.perm_append_comm
    · simp only [upd_ne _ _ _ (show 0 ≠ c.top + 1 by omega)]; exact g.init
    · intro k hk x hx
      by_cases h : k = c.top + 1
      · subst h; simp at hx
      · simp only [upd_ne _ _ _ h] at hx ⊢
        exact g.obsStep k (by simp at hk; omega) x hx
    · intro k hk
      by_cases h : k = c.top
      · subst h
        exact ⟨(i, o, r), by simp, by simpa using hs⟩
      · simp only at hk
        simp only [upd_ne _ _ _ (show k + 1 ≠ c.top + 1 by omega), upd_ne _ _ _ (show k ≠ c.top + 1 by omega)]
        exact g.wrStep k (by omega)
    · intro k hk x hx
      by_cases h : k = c.top + 1
      · subst h; simp at hx
      · simp only at hk
        simp only [upd_ne _ _ _ h] at hx
        rw [upd_ne _ _ _ (hmo k (by omega) x hx)]
        exact g.obsPos k (by omega) x hx
    · intro k hk h0 x hx
      by_cases h : k = c.top + 1
      · subst h
        simp at hx; subst hx
        simp only [upd_self, true_and]
        rw [hst]
        omega
      · simp only at hk
        simp only [upd_ne _ _ _ h] at hx
        rw [upd_ne _ _ _ (hnew x (mem_order.2 ⟨k, by omega, .inr ⟨h0, hx⟩⟩))]
        exact g.wrPos k (by omega) h0 x hx
    · intro k hk
      by_cases h : k = c.top + 1
      · subst h; simp
      · simp only at hk
        rw [upd_ne _ _ _ h]; exact g.pair k (by omega)

theorem WReach.good {tr : List (Event Op Ret × Nat)} {c : WCState S} (hr : WReach S tr c) :
    ∃ obs wr pos, WGood tr c obs wr pos := by
  induction hr with
  | init => exact ⟨_, _, _, .initial⟩
  | move _ m ih =>
    obtain ⟨obs, wr, pos, g⟩ := ih
    exact g.move m

/-- Every history of the canonical weak object is linearizable in any order `hb` contained in the order of
positions and stamps. Every call placed has returned or is `done`, and the run ends in the newest state. -/
theorem WReach.linearization {tr : List (Event Op Ret × Nat)} {c : WCState S} (hr : WReach S tr c)
    {hb : Nat → Nat → Prop}
    (hhb : ∀ j i t r t' o, (evs tr)[j]? = some (.res t r) → (evs tr)[i]? = some (.inv t' o) → hb j i →
      j < i ∧ stampAt tr j ≤ stampAt tr i) :
    ∃ L, HbLinearization S hb (evs tr) L ∧ Run S S.init L (c.st c.top) ∧
      ∀ x ∈ L, (∃ j, Returned (evs tr) x.1 j x.2.2) ∨ ∃ t k, c.status t = .done x.2.1 x.2.2 k := by
  obtain ⟨obs, wr, pos, g⟩ := hr.good
  refine ⟨order obs wr c.top, ⟨g.nodup, g.invoked, g.complete, ?_, _, g.run _ (Nat.le_refl _)⟩,
    g.run _ (Nat.le_refl _), fun x hx => ?_⟩
  · refine (g.sorted _ (Nat.le_refl _)).imp_of_mem ?_
    rintro a b ha _ hab ⟨j, r, h1, h2⟩
    obtain ⟨t, o, _, _, h3, _⟩ := id h1
    obtain ⟨t', ht'⟩ := g.invoked a ha
    obtain ⟨h4, h5⟩ := hhb _ _ _ _ _ _ h3 ht' h2
    exact hab ⟨j, r, h1, h4, h5⟩
  · rcases g.ret x hx with h | ⟨t, k, _, h⟩
    · exact .inl h
    · exact .inr ⟨t, k, h⟩

end proof
end Verif.Lin
