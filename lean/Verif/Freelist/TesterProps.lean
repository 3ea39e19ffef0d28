import Verif.Freelist.TesterEnd

/-!
# The stress test of the freelists (C68): properties
-/

namespace Verif.Freelist.Tester
open Lin User Both Text
open Verif.Queue (delivered offered accepted)

variable {F Q : Rep} {size n : Nat} {x : Setup} {h : History (Op Unit ⊕ Queue.Op Nat) (Ret ⊕ Queue.Ret Nat)} {C : TesterConf F Q}

theorem text_makes {S L Ch O R : Type} (p : Program S L Ch O R) : Makes p.mach .call := by
  intro t s o s' p' e h
  simp only [Program.mach, Option.map_eq_some_iff] at h
  obtain ⟨y, _, h⟩ := h
  cases h
  rfl

theorem both_exec (hx : Runs F Q size n x h C) : MSteps (both (program F Unit).mach (Queue.Code.program Q Nat).mach)
    (okBoth (program F Unit).mach (Queue.Code.program Q Nat).mach (Program.ok fun _ _ => True) (Program.ok fun _ _ => True))
    ⟨(SMem.initial F size, (Queue.SConf.initial Q n).s), fun _ => .idle⟩ h (baseOf (both (program F Unit).mach (Queue.Code.program Q Nat).mach) C) :=
  User.Runs.base (plays (text_ends _) (text_ends _) (text_makes _) (text_makes _)) (reads (text_makes _) (text_makes _)) hx

/-- The calls of the freelist are an execution of the freelist. -/
theorem tester_freelist_exec (hx : Runs F Q size n x h C) :
    Exec F size (lefts h) (confL (program F Unit).mach (baseOf (both (program F Unit).mach (Queue.Code.program Q Nat).mach) C)) :=
  steps_left (text_ends _) (both_exec hx)

/-- The calls of the queue are an execution of the queue. -/
theorem tester_queue_exec (hx : Runs F Q size n x h C) :
    Queue.Code.TextExec Q n (rights h) (confR (Queue.Code.program Q Nat).mach (baseOf (both (program F Unit).mach (Queue.Code.program Q Nat).mach) C)) :=
  steps_right (text_ends _) (both_exec hx)

/-- A call returns what the specification says. -/
theorem Linearizable.returns {Op Ret : Type} {S : Spec Op Ret} {h : History Op Ret} (hl : Linearizable S h) {i j t : Nat} {o : Op} {r : Ret}
    (hi : h[i]? = some (.inv t o)) (hr : Returned h i j r) : ∃ σ σ', S.step σ o r σ' := by
  obtain ⟨L, hl⟩ := hl
  obtain ⟨o', hm⟩ := hl.complete i j r hr
  obtain ⟨t', ht'⟩ := hl.invoked _ hm
  rw [hi] at ht'
  simp only [Option.some.injEq, Event.inv.injEq] at ht'
  obtain ⟨rfl, rfl⟩ := ht'
  obtain ⟨σ, hrun⟩ := hl.legal
  have key : ∀ {L : List (Nat × Op × Ret)} {σ₀ σ}, Run S σ₀ L σ → (i, o, r) ∈ L → ∃ σ σ', S.step σ o r σ' := by
    intro L σ₀ σ hrun
    induction hrun with
    | nil => intro h; cases h
    | cons hs _ ih =>
      intro h
      rcases List.mem_cons.1 h with h | h
      · cases h; exact ⟨_, _, hs⟩
      · exact ih h
  exact key hrun hm

/-- The calls made. -/
theorem tester_calls (hx : Runs F Q size n x h C) {t : Nat} {o} (ho : Event.inv t o ∈ h) : ∃ k, x.ops k = some o := by
  induction hx with
  | refl => simp at ho
  | @step h C u ch σ' p' e hx hst hok ih =>
    rcases List.mem_append.1 ho with ho | ho
    · exact ih ho
    · have htd := Runs.tidy (sr := id) (plays (text_ends _) (text_ends _) (text_makes _) (text_makes _)) (reads (text_makes _) (text_makes _)) hx
      have hstep := tstep (text_ends _) (text_ends _) (text_makes _) (text_makes _) (fun k hk => (htd.busy u k _ hk).1 rfl) hst
      generalize σ'.2 = g' at hstep
      generalize C.pc u = pt at hstep
      cases hstep <;> simp at ho
      · obtain ⟨rfl, rfl⟩ := ho; exact ⟨_, ‹_›⟩
      · obtain ⟨rfl, rfl⟩ := ho; exact ⟨_, ‹_›⟩

theorem tester_inv (hf : F.Faithful) (hq : Q.Faithful) (hs : size ≤ F.limit) (hn : n + 1 ≤ Q.limit) (hx : Runs F Q size n x h C) :
    NInv x h C.pc C.s.2 ∧ EInv x (Q.fixed = false) (rights h) C.pc C.s.2 := by
  induction hx with
  | refl => exact ⟨NInv.initial x, EInv.initial x _⟩
  | @step h C t ch σ' p' e hx hst hok ih =>
    obtain ⟨hi, he⟩ := ih
    have htd := Runs.tidy (sr := id) (plays (text_ends _) (text_ends _) (text_makes _) (text_makes _)) (reads (text_makes _) (text_makes _)) hx
    have hstep := tstep (text_ends _) (text_ends _) (text_makes _) (text_makes _) (fun k hk => (htd.busy t k _ hk).1 rfl) hst
    have hx' : Runs F Q size n x (h ++ e.toList) ⟨σ', upd C.pc t p'⟩ := .step hx hst hok
    have hL := tester_freelist_exec hx'
    have hR := tester_queue_exec hx'
    have hdisc : ∀ r, e = some (.res t (.inl r)) → Disciplined (lefts h ++ [.res t r]) := fun r _ => disciplined_snoc hi.disc nofun
    have hlin : Linearizable (Queue.spec Nat Q.fixed) (rights h) := Queue.Code.queue_text_linearizable hq hn (tester_queue_exec hx)
    constructor
    · refine hi.step hstep ?_ ?_ ?_
      · rintro n rfl
        have hd := hdisc _ rfl
        rw [Option.toList_some, lefts_append, lefts_inl_res] at hL
        exact freelist_exclusive hf hs hL hd (h₂ := []) rfl
      · rintro n k q hpk rfl
        have hd := hdisc _ rfl
        rw [Option.toList_some, lefts_append, lefts_inl_res] at hL
        have hl := freelist_linearizable hf hs hL hd
        have hpt := hpk
        generalize C.pc t = pt at hstep hpk
        generalize σ'.2 = g' at hstep
        cases hstep with
        | @finL k' q' r =>
          cases hpk
          have hsd := hi.sided t
          rw [hpt] at hsd
          obtain ⟨o, ho⟩ := hsd
          obtain ⟨i, hpe⟩ := hi.callingL.busy t o (by rw [hpt]; simp [Tester.callL, ho])
          obtain ⟨σ, σ', h1⟩ := Linearizable.returns hl (i := i) (t := t) (o := o)
            (by rw [getElem?_snoc, if_pos (lt_of_getElem? hpe.1)]; exact hpe.1) (hpe.returned _)
          cases k <;> simp only [Setup.ops] at ho <;> cases ho
          · exact ⟨_, rfl⟩
          · cases h1
      · intro y
        obtain ⟨L, hl⟩ := hlin
        exact (Queue.HbLinearization.queue_delivers hl.any).count_le y
    · refine he.step hi hstep ?_
      rintro hfix j m q hpk rfl
      rw [Option.toList_some, rights_append, rights_inr_res] at hR
      have hl := Queue.Code.queue_text_linearizable hq hn hR
      obtain ⟨i, hpe⟩ := hi.calling.busy t (.push false m) (by rw [hpk]; rfl)
      obtain ⟨σ, σ', h1⟩ := Linearizable.returns hl (i := i) (t := t) (o := .push false m)
        (by rw [getElem?_snoc, if_pos (lt_of_getElem? hpe.1)]; exact hpe.1) (hpe.returned _)
      rcases h1 with ⟨h1, _⟩ | ⟨_, h1, _⟩
      · cases h1
      · rw [hfix] at h1; cases h1

/-- **C68 (the stress test of the freelists never fails).** No assertion of the test fails (freelist_test.cpp:173, 188, 204). -/
theorem freelist_tester_never_fails (hf : F.Faithful) (hq : Q.Faithful) (hs : size ≤ F.limit) (hn : n + 1 ≤ Q.limit) (hx : Runs F Q size n x h C) (t : Nat) :
    C.pc t ≠ .at .failed := by
  intro he
  have := (tester_inv hf hq hs hn hx).1.role t
  rw [he] at this
  exact this

/-- **C68 (no undefined behaviour).** Neither in the freelist, where it covers the assertions of `dummy` (freelist_test.cpp:34-46), nor in the queue. -/
theorem freelist_tester_no_undefined_behaviour (hf : F.Faithful) (hq : Q.Faithful) (hs : size ≤ F.limit) (hn : n + 1 ≤ Q.limit) (hx : Runs F Q size n x h C)
    (t : Nat) (a : At) : C.pc t ≠ .call a (.left .err) ∧ C.pc t ≠ .call a (.right .err) := by
  have hi := (tester_inv hf hq hs hn hx).1
  constructor
  · intro he
    refine freelist_no_undefined_behaviour hf hs (tester_freelist_exec hx) hi.disc t ?_
    simp only [confL, baseOf, pcOf, he]; rfl
  · intro he
    refine Queue.Code.queue_text_no_undefined_behaviour hq hn (tester_queue_exec hx) t ?_
    simp only [confR, baseOf, pcOf, he]; rfl

/-- **C68 (a node has one user).** The test uses the freelist as C67 demands, and nobody gets a node that somebody has. -/
theorem freelist_tester_exclusive (hf : F.Faithful) (hq : Q.Faithful) (hs : size ≤ F.limit) (hn : n + 1 ≤ Q.limit) (hx : Runs F Q size n x h C) :
    Disciplined (lefts h) ∧ (owned (lefts h)).Nodup := by
  have hi := (tester_inv hf hq hs hn hx).1
  exact ⟨hi.disc, List.nodup_iff_count_le_one.2 hi.single⟩

/-- **C68 (the end of the stress test of the freelists).** With at least one deallocator and a queue of unlimited size, once `run` has joined all threads: nothing is
left in `working_set`; every node pushed was popped; the queue is empty; no node is in use; and every node is in the list of free nodes, once. -/
theorem freelist_tester_finished (hf : F.Faithful) (hq : Q.Faithful) (hs : size ≤ F.limit) (hn : n + 1 ≤ Q.limit) (hfix : Q.fixed = false)
    (hd : 0 < x.deallocators) (hx : Runs F Q size n x h C) (hm : C.pc x.main = .at .finished) :
    C.s.2.working_set = [] ∧ (delivered (rights h)).Perm (offered (rights h)) ∧ Queue.HoldsW Q C.s.1.2 [] ∧ owned (lefts h) = [] ∧
      ∃ l, Linked F C.s.1.1 (F.K.ptr C.s.1.1.pool) l ∧ l.Perm (List.range C.s.1.1.nalloc) := by
  obtain ⟨hi, he⟩ := tester_inv hf hq hs hn hx
  have hend : ∀ t < x.main, C.pc t = .at .ended := fun t ht => he.ended t (he.dealloc (by rw [hm]; rfl) t ht)
  have hat : ∀ t, ∃ a, C.pc t = .at a ∧ (a = .ended ∨ a = .finished ∨ a = .absent) := by
    intro t
    by_cases h1 : t < x.main
    · exact ⟨_, hend t h1, .inl rfl⟩
    · by_cases h2 : t = x.main
      · subst h2; exact ⟨_, hm, .inr (.inl rfl)⟩
      · have hr := hi.role t
        have hsd := hi.sided t
        generalize C.pc t = p at hr hsd
        have h3 : p.here = .absent := by
          generalize p.here = a at hr
          cases a <;> simp only [Role, Setup.main] at hr h1 h2 ⊢ <;> omega
        cases p with
        | «at» a => exact ⟨a, rfl, .inr (.inr h3)⟩
        | call a q =>
          simp only [PC.here] at h3
          subst h3
          cases q <;> simp [Sided, Setup.ops] at hsd
  have hzero : ∀ (f : User.PC At _ → List Nat), (∀ a, a = .ended ∨ a = .finished ∨ a = .absent → f (.at a) = []) → ∀ y, tot f C.pc y (x.main + 1) = 0 := by
    intro f hf y
    refine tot_zero y fun t => ?_
    obtain ⟨a, h1, h2⟩ := hat t
    rw [h1]; exact hf a h2
  obtain ⟨-, i, j, h1, h2, h3⟩ := he.seen x.allocators (Nat.le_refl _) (by rw [hend _ (Nat.lt_add_of_pos_right hd)]; exact .inr rfl)
  obtain ⟨L, hl⟩ := Queue.Code.queue_text_linearizable hq hn (tester_queue_exec hx)
  have hall : ∀ (i t : Nat) (o : Queue.Op Nat), (rights h)[i]? = some (.inv t o) → ∃ j r, Returned (rights h) i j r := by
    intro i t o hio
    rcases hi.calling.split i t o hio with h | h
    · have := hi.calling.who h
      obtain ⟨a, ha, _⟩ := hat t
      rw [ha] at this; cases this
    · exact h
  have hdel : (delivered (rights h)).Perm (accepted (rights h)) := by
    have := HbLinearization.drained (put := fun o r => (Queue.pushedBy o r).toList) (get := fun o r => (Queue.handedBy o r).toList)
      (adds := fun o => ∃ bd v, o = .push bd v) (hl.hb (hb := (· < ·)) fun _ _ h => h) (fun σ => (σ : List Nat)) rfl ?_ hall ?_ h1 h2 ?_ ?_
    · rw [← Queue.Code.allPut_delivered, ← Queue.Code.allPut_accepted]; exact this
    · intro σ i o r σ' _ hst
      cases o with
      | push bd v =>
        cases r with
        | pushed ok =>
          rcases hst with ⟨rfl, rfl⟩ | ⟨rfl, _, rfl⟩
          · exact List.perm_append_comm (l₁ := σ) (l₂ := [v])
          · exact List.Perm.refl _
        | threw => cases hst; exact List.Perm.refl _
        | _ => exact hst.elim
      | pop =>
        cases r with
        | popped w =>
          cases w with
          | none => obtain ⟨rfl, rfl⟩ := hst; exact List.Perm.refl _
          | some v => cases hst; exact List.Perm.refl _
        | threw => cases hst; exact List.Perm.refl _
        | _ => exact hst.elim
      | empty =>
        cases r with
        | isEmpty => cases hst; exact List.Perm.refl _
        | _ => exact hst.elim
      | reserve =>
        cases r with
        | reserved => cases hst; exact List.Perm.refl _
        | threw => cases hst; exact List.Perm.refl _
        | _ => exact hst.elim
    · intro i o r _ ho
      cases o with
      | push bd v => exact absurd ⟨bd, v, rfl⟩ ho
      | _ => cases r <;> rfl
    · intro σ σ' hst; exact hst.2
    · rintro k u o hk ⟨bd, v, rfl⟩
      exact h3 k u bd v hk
  have hoff : (offered (rights h)).Perm (accepted (rights h)) := by
    rw [List.perm_iff_count]
    intro y
    have := he.acc hfix (fun t ht => by obtain ⟨a, ha, hb⟩ := hat t; rw [ha] at ht; simp only [PC.here] at ht; subst ht; simp at hb) y
    rw [hzero _ (by rintro a (rfl | rfl | rfl) <;> rfl)] at this
    omega
  have hws : C.s.2.working_set = [] := by
    rw [List.eq_nil_iff_forall_not_mem]
    intro y hy
    have h4 := List.count_pos_iff.2 hy
    have h5 := hi.flow y
    rw [hzero _ (by rintro a (rfl | rfl | rfl) <;> rfl), hzero _ (by rintro a (rfl | rfl | rfl) <;> rfl), hdel.count_eq y, hoff.count_eq y] at h5
    omega
  have hown : owned (lefts h) = [] := by
    rw [List.eq_nil_iff_forall_not_mem]
    intro y hy
    have h4 := List.count_pos_iff.2 hy
    have h5 := hi.own y
    rw [hzero _ (by rintro a (rfl | rfl | rfl) <;> rfl), hzero _ (by rintro a (rfl | rfl | rfl) <;> rfl), hws] at h5
    simp at h5
    omega
  refine ⟨hws, hdel.trans hoff.symm, ?_, hown, ?_⟩
  · obtain ⟨vs, hv, hcons⟩ := Queue.Code.queue_text_conservation hq hn (tester_queue_exec hx) (fun t => by
      obtain ⟨a, ha, _⟩ := hat t
      simp only [confR, baseOf, ha]; rfl)
    have : vs = [] := by
      have := (hcons.trans hdel.symm).length_eq
      simp at this
      exact this
    rw [this] at hv
    exact hv
  · have hno : ∀ t b v, Event.inv t (.construct b v true) ∉ lefts h := by
      intro t b v hm
      simp only [lefts, List.mem_filterMap] at hm
      obtain ⟨ev, hev, he⟩ := hm
      split at he
      · cases he
        obtain ⟨k, hk⟩ := tester_calls hx hev
        cases k <;> simp [Setup.ops] at hk
      · cases he
      · cases he
    obtain ⟨l, h4, h5⟩ := freelist_conservation hf hs (tester_freelist_exec hx) hi.disc (fun t => by
      obtain ⟨a, ha, _⟩ := hat t
      simp only [confL, baseOf, ha]; rfl) hno
    rw [hown, List.append_nil] at h5
    exact ⟨l, h4, h5⟩

/-! ### How many nodes went through the queue -/

/-- The number of nodes that an allocator has offered to the queue. -/
def Offered (x : Setup) {P : Type} (c : Nat) : User.PC At P → Prop
  | .at (.forTest i) | .at (.construct i) | .at (.insert i _) | .at (.push i _) => c = i
  | .call (.construct i) _ => c = i
  | .call (.push i _) _ => c = i + 1
  | .at .leave | .at .ended => c = x.count
  | _ => True

theorem tester_offered (hf : F.Faithful) (hq : Q.Faithful) (hs : size ≤ F.limit) (hn : n + 1 ≤ Q.limit) (hx : Runs F Q size n x h C) :
    ∃ c : Nat → Nat, (offered (rights h)).length = tot (fun k => List.replicate k 0) c 0 x.allocators ∧ ∀ t < x.allocators, Offered x (c t) (C.pc t) := by
  induction hx with
  | refl =>
    refine ⟨fun _ => 0, ?_, fun t ht => ?_⟩
    · rw [tot_zero _ fun _ => rfl]; rfl
    · simp only [start, if_pos ht, Offered]
  | @step h C t ch σ' p' e hx hst hok ih =>
    have hi := (tester_inv hf hq hs hn hx).1
    obtain ⟨c, h1, h2⟩ := ih
    have htd := Runs.tidy (sr := id) (plays (text_ends _) (text_ends _) (text_makes _) (text_makes _)) (reads (text_makes _) (text_makes _)) hx
    have hstep := tstep (text_ends _) (text_ends _) (text_makes _) (text_makes _) (fun k hk => (htd.busy t k _ hk).1 rfl) hst
    have hr := hi.role t
    have hsd := hi.sided t
    have keep : (offered (rights (h ++ e.toList))).length = (offered (rights h)).length → (t < x.allocators → Offered x (c t) p') →
        ∃ c : Nat → Nat, (offered (rights (h ++ e.toList))).length = tot (fun k => List.replicate k 0) c 0 x.allocators ∧
          ∀ u < x.allocators, Offered x (c u) (upd C.pc t p' u) := by
      intro h3 h4
      refine ⟨c, h3.trans h1, fun u hu => ?_⟩
      rw [upd_apply]
      split
      · subst u; exact h4 hu
      · exact h2 u hu
    have h2t := h2 t
    generalize hpt : C.pc t = pt at hstep hr hsd h2t
    generalize σ'.2 = g' at hstep
    simp only [PC.here] at hr
    cases hstep with
    | @act k b g' k' hk ha =>
      refine keep (by simp) fun ht => ?_
      have h2t := h2t ht
      cases k <;> simp only [Setup.act] at ha <;> simp only [Role, PC.here] at hr <;> (try omega)
      all_goals
        repeat' split at ha
        all_goals first | cases ha | skip
      all_goals simp_all [Offered]
    | @callL k o p ho =>
      refine keep (by rw [Option.toList_some, rights_append]; simp [rights]) fun ht => ?_
      have h2t := h2t ht
      cases k <;> simp only [Setup.ops] at ho <;> cases ho <;> exact h2t
    | @callR k o p ho =>
      cases k <;> simp only [Setup.ops] at ho <;> cases ho
      · rename_i i m
        have ht : t < x.allocators := hr
        refine ⟨upd c t (c t + 1), ?_, fun u hu => ?_⟩
        · rw [Option.toList_some, rights_append, rights_inr_inv, offered_snoc_inv]
          have := tot_upd (f := fun k => List.replicate k 0) (pc := c) (p := c t + 1) 0 ht
          simp only [List.count_replicate_self] at this
          simp [Queue.offeredBy]
          omega
        · simp only [upd_apply]
          split
          · subst u; have := h2t ht; simp only [Offered] at this ⊢; omega
          · exact h2 u hu
      · refine keep (by rw [Option.toList_some, rights_append, rights_inr_inv, offered_snoc_inv]; simp [Queue.offeredBy]) fun ht => ?_
        simp only [Role] at hr
        omega
    | @inL k p p' =>
      refine keep (by simp) fun ht => ?_
      have h2t := h2t ht
      cases k <;> exact h2t
    | @inR k p p' =>
      refine keep (by simp) fun ht => ?_
      have h2t := h2t ht
      cases k <;> exact h2t
    | @finL k p r =>
      refine keep (by rw [Option.toList_some, rights_append]; simp [rights]) fun ht => ?_
      have h2t := h2t ht
      obtain ⟨o, ho⟩ := hsd
      cases k <;> simp only [Setup.ops] at ho <;> cases ho <;> simp only [Role, PC.here] at hr <;> (try omega)
      rcases r with (_ | m) | _ | _ <;> simp_all [next, Offered]
    | @finR k p r =>
      refine keep (by rw [Option.toList_some, rights_append, rights_inr_res, offered_snoc_res]) fun ht => ?_
      have h2t := h2t ht
      obtain ⟨o, ho⟩ := hsd
      cases k <;> simp only [Setup.ops] at ho <;> cases ho <;> simp only [Role, PC.here] at hr <;> (try omega)
      cases r <;> simp_all [next, Offered]

theorem tot_const {c : Nat → Nat} {m N : Nat} (hc : ∀ t < N, c t = m) : tot (fun k => List.replicate k 0) c 0 N = N * m := by
  induction N with
  | zero => simp [tot]
  | succ N ih =>
    rw [tot, ih fun t ht => hc t (by omega), hc N (by omega), List.count_replicate_self, Nat.succ_mul]

/-- **C68 (every allocator did its work).** Once `run` has stopped the deallocators, `operations_per_thread` nodes per allocator went into the queue. -/
theorem freelist_tester_count (hf : F.Faithful) (hq : Q.Faithful) (hs : size ≤ F.limit) (hn : n + 1 ≤ Q.limit) (hx : Runs F Q size n x h C)
    (hm : C.pc x.main = .at .joinDealloc ∨ C.pc x.main = .at .finished) : (offered (rights h)).length = x.allocators * x.count := by
  obtain ⟨c, h1, h2⟩ := tester_offered hf hq hs hn hx
  have he := (tester_inv hf hq hs hn hx).2
  rw [h1]
  refine tot_const fun t ht => ?_
  have h3 := h2 t ht
  rw [he.ended t (he.alloc (by rcases hm with hm | hm <;> rw [hm] <;> exact trivial) t ht)] at h3
  exact h3

end Verif.Freelist.Tester
