import Verif.Freelist.Text
import Verif.HeapObs

/-!
# The freelists on their own: invariant (C67)

No further code of /repo is modelled here.
-/

namespace Verif.Freelist
open Lin Text

variable {α : Type} {R : Rep} {cfg : Cfg} {h : Heap α} {own : Nat → Owner} {F : List Nat} {held : Nat → List Nat} {t n : Nat}

/-! ### Nodes change hands outside the freelist -/

theorem HInv.claim (hi : HInv cfg h own F held) (hm : own n = .str) :
    HInv cfg h (upd own n (.thr t)) F (upd held t (n :: held t)) := by
  refine ⟨hi.chain, hi.fnodup, ?_, ?_, ?_, ?_, hi.tag, ?_⟩
  · intro m; have := hi.fmem m; grind
  · intro t' m; have := hi.hmem t' m; grind
  · intro t'; have := hi.hnodup t'; have := hi.hmem t' n; grind
  · intro m; have := hi.raw m; grind
  · intro m; have := hi.fdata m; grind

theorem HInv.release (hi : HInv cfg h own F held) (hm : own n = .thr t) {x : Owner} (hx : x = .str ∨ x = .lost) :
    HInv cfg h (upd own n x) F (upd held t ((held t).erase n)) := by
  refine ⟨hi.chain, hi.fnodup, ?_, ?_, ?_, ?_, hi.tag, ?_⟩
  · intro m; have := hi.fmem m; grind
  · intro t' m; have := hi.hmem t' m; have := hi.hnodup t'; grind [List.Nodup.mem_erase_iff]
  · intro t'; have := hi.hnodup t'; grind [List.Nodup.erase]
  · intro m; have := hi.raw m; grind
  · intro m; have := hi.fdata m; grind

theorem HInv.setData (hi : HInv cfg h own F held) (hm : own n = .thr t) (d : Option α) : HInv cfg (h.setData n d) own F held := by
  refine ⟨hi.chain, hi.fnodup, hi.fmem, hi.hmem, hi.hnodup, hi.raw, hi.tag, ?_⟩
  intro m; have := hi.fdata m; simp only [Heap.setData]; grind

/-- What a successful `allocate` does to the freelist. -/
theorem aStep_got {b : Bool} {a : APC} {O : Type} {ch : Choice O} {h' : Heap α} (hi : HInv cfg h own F held) (hl : ALocal cfg h F a)
    (hf : aFresh cfg h a) (hs : aStep cfg b h a ch = some (h', .got n)) :
    (h' = h.malloc ∧ n = h.nalloc ∧ (cfg.fixed || b) = false) ∨
      (h.pool.ptr = some n ∧ h'.next = h.next ∧ h'.pool.ptr = (h.next n).ptr ∧ h'.nalloc = h.nalloc) := by
  cases a with
  | load => cases ch <;> simp [aStep] at hs
  | test o =>
    simp only [aStep] at hs
    split at hs
    · split at hs
      · split at hs <;> simp at hs
      · rename_i hb
        split at hs <;> simp at hs
        exact .inl ⟨hs.1.symm, hs.2.symm, by simpa using hb⟩
    · split at hs <;> simp at hs
  | cas o nx =>
    obtain ⟨⟨hv, htag, hp⟩, k, hn, hnx⟩ := hl
    cases ch with
    | spur => simp [aStep] at hs
    | go =>
      simp only [aStep] at hs
      split at hs
      · rename_i heq
        simp only [hn, Option.some.injEq, Prod.mk.injEq, ARes.got.injEq] at hs
        obtain ⟨rfl, rfl⟩ := hs
        have hver : h.poolVer = o.ver := ver_eq_of_fresh hv hf (by rw [← hi.tag, ← htag, heq])
        exact .inr ⟨by rw [heq, hn], rfl, (hnx hver.symm).symm, rfl⟩
      · simp at hs
    | _ => simp [aStep] at hs

/-- What the end of `deallocate` does to the freelist. -/
theorem dStep_end {d : DPC} {O : Type} {ch : Choice O} {h' : Heap α} (hl : DLocal h n d) (hs : dStep h n d ch = some (h', none)) :
    h'.next = h.next ∧ h'.pool.ptr = some n ∧ (h.next n).ptr = h.pool.ptr := by
  cases d with
  | load => cases ch <;> simp [dStep] at hs
  | set o => cases ch <;> simp [dStep] at hs
  | cas o =>
    cases ch with
    | spur => simp [dStep] at hs
    | go =>
      simp only [dStep] at hs
      split at hs
      · rename_i heq
        simp at hs; subst hs
        exact ⟨rfl, rfl, by rw [heq]; exact hl⟩
      · simp at hs
    | _ => simp [dStep] at hs

/-! ### The invariant -/

/-- The shared part; `N`: number of nodes at the beginning. Nodes and freelist on pairs (`H`), who has which node; `σ`: the specification. -/
structure Shape (R : Rep) (N : Nat) (hist : History (Op α) Ret) (m : SMem R.K α) (σ : Pool) (H : Heap α) (own : Nat → Owner) (F : List Nat)
    (held : Nat → List Nat) : Prop where
  mem : MemRel R H m
  hinv : HInv R.cfg H own F held
  str : ∀ k, own k = .str ↔ k ∈ owned hist
  nodup : (owned hist).Nodup
  alive : ∀ k ∈ owned hist, H.data k ≠ none
  free : σ.free = F
  unodup : σ.used.Nodup
  used : ∀ k, k ∈ σ.used ↔ own k ≠ .raw ∧ own k ≠ .free
  vals : ∀ k v, Made hist k v → H.data k = some v
  lost : ∀ k, own k = .lost → ∃ t b v, Event.inv t (.construct b v true) ∈ hist
  bound : (R.fixed = true ∨ ∀ t v thr, Event.inv t (.construct false v thr) ∉ hist) → H.nalloc = N

/-- What is known about a thread; `l`: the nodes it has. -/
def TInv (R : Rep) (H : Heap α) (F l : List Nat) (st : Status (Op α) Ret) : PC R.K α → Prop
  | .idle => l = [] ∧ st = .idle
  | .alloc b v thr a => l = [] ∧ (∃ a', ARel R H.nalloc H.poolVer a' a ∧ ALocal R.cfg H F a') ∧
      ∃ P, st = .pend (.construct b v thr) P ∧ ∀ o, a = .test o → R.K.node (R.K.ptr o.v) = none → (R.fixed || b) = true → P (.node none)
  | .constr v thr n => l = [n] ∧ H.data n = none ∧ ∃ b, st = .done (.construct b v thr) (if thr then .threw else .node (some n))
  | .destroy n => l = [n] ∧ H.data n ≠ none ∧ ∃ P, st = .pend (.destruct n) P
  | .free n d => l = [n] ∧ H.data n = none ∧ (∃ d', DRel R H.nalloc H.poolVer d' d ∧ DLocal H n d') ∧ ∃ P, st = .pend (.destruct n) P
  | .ret r => ((∃ o, st = .done o r) ∨ ∃ o P, st = .pend o P ∧ P r) ∧
      match r with
      | .node (some n) => l = [n] ∧ ∃ b v thr, st = .done (.construct b v thr) r ∧ H.data n = some v
      | _ => l = []
  | .err => False

/-- What other threads do not change. -/
structure Keep (H : Heap α) (F : List Nat) (H' : Heap α) (F' l : List Nat) : Prop where
  nalloc : H.nalloc ≤ H'.nalloc
  ver : H.poolVer ≤ H'.poolVer
  free : H'.poolVer = H.poolVer → ∀ n ∈ F, n ∈ F' ∧ (H'.next n).ptr = (H.next n).ptr
  held : ∀ n ∈ l, H'.next n = H.next n ∧ H'.data n = H.data n

theorem TInv.mono {H H' : Heap α} {F F' l : List Nat} {st} {p : PC R.K α} (hi : TInv R H F l st p) (hk : Keep H F H' F' l) :
    TInv R H' F' l st p := by
  cases p with
  | idle => exact hi
  | alloc b v thr a =>
    obtain ⟨h1, ⟨a', h2, h3⟩, h4⟩ := hi
    exact ⟨h1, ⟨a', h2.mono hk.nalloc hk.ver, h3.mono hk.nalloc hk.ver hk.free⟩, h4⟩
  | constr v thr n =>
    obtain ⟨rfl, h2, h3⟩ := hi
    exact ⟨rfl, by rw [(hk.held n (by simp)).2]; exact h2, h3⟩
  | destroy n =>
    obtain ⟨rfl, h2, h3⟩ := hi
    exact ⟨rfl, by rw [(hk.held n (by simp)).2]; exact h2, h3⟩
  | free n d =>
    obtain ⟨rfl, h2, ⟨d', h3, h4⟩, h5⟩ := hi
    have h6 := hk.held n (by simp)
    refine ⟨rfl, by rw [h6.2]; exact h2, ⟨d', h3.mono hk.nalloc hk.ver, ?_⟩, h5⟩
    cases d' <;> simp only [DLocal] at h4 ⊢
    rw [h6.1]; exact h4
  | ret r =>
    refine ⟨hi.1, ?_⟩
    have h1 := hi.2
    cases r with
    | node o =>
      cases o with
      | none => exact h1
      | some n =>
        obtain ⟨rfl, h2⟩ := h1
        exact ⟨rfl, by rw [(hk.held n (by simp)).2]; exact h2⟩
    | threw => exact h1
    | done => exact h1
  | err => exact hi

theorem Keep.refl (H : Heap α) (F l : List Nat) : Keep H F H F l := ⟨Nat.le_refl _, Nat.le_refl _, fun _ n hn => ⟨hn, rfl⟩, fun _ _ => ⟨rfl, rfl⟩⟩

theorem Keep.setData (H : Heap α) (F l : List Nat) {n : Nat} (hn : n ∉ l) (d : Option α) : Keep H F (H.setData n d) F l := by
  refine ⟨Nat.le_refl _, Nat.le_refl _, fun _ n hn => ⟨hn, rfl⟩, fun m hm => ⟨rfl, ?_⟩⟩
  have : m ≠ n := by rintro rfl; exact hn hm
  simp [Heap.setData, upd_ne _ _ _ this]

theorem Keep.of {H H' : Heap α} {own' F' held'} (hs : HStep cfg t H own F held H' own' F' held') (hi : HInv cfg H own F held) {t' : Nat} (ht : t' ≠ t) :
    Keep H F H' F' (held t') := by
  refine ⟨hs.nalloc, hs.pver, fun he n hn => ?_, fun n hn => ?_⟩
  · have h1 := hs.pF he n hn
    have h2 := (hi.fmem n).2 hn
    have h3 := (hs.inv.fmem n).2 h1
    exact ⟨h1, by rw [(hs.frame n (by rw [h2]; simp) (by rw [h3]; simp)).1]⟩
  · have h1 := (hi.hmem t' n).2 hn
    have h2 := (hs.inv.hmem t' n).2 (by rw [hs.others t' ht]; exact hn)
    have hne : Owner.thr t' ≠ .thr t := by simpa using ht
    have h3 := hs.frame n (by rw [h1]; exact hne) (by rw [h2]; exact hne)
    exact ⟨h3.1, h3.2.1⟩

/-- The invariant. -/
def GInv (R : Rep) (N : Nat) (hist : History (Op α) Ret) (D : MConf (SMem R.K α) (PC R.K α)) (σ : Pool) (status : Nat → Status (Op α) Ret) : Prop :=
  ∃ H own F held, Shape R N hist D.s σ H own F held ∧ ∀ t, TInv R H F (held t) (status t) (D.pc t)

section
variable {D : MConf (SMem R.K α) (PC R.K α)} {hist : History (Op α) Ret} {status : Nat → Status (Op α) Ret} {H : Heap α}

theorem assemble {N : Nat} {hist' : History (Op α) Ret} {m' : SMem R.K α} {p'} {σ' : Pool} {x} {H' own' F'} {l : List Nat}
    (ho : ∀ t, TInv R H F (held t) (status t) (D.pc t))
    (hs : Shape R N hist' m' σ' H' own' F' (upd held t l)) (hp : TInv R H' F' l x p') (hk : ∀ t', t' ≠ t → Keep H F H' F' (held t')) :
    GInv R N hist' ⟨m', upd D.pc t p'⟩ σ' (upd status t x) := by
  refine ⟨H', own', F', _, hs, fun t' => ?_⟩
  by_cases ht : t' = t
  · subst ht; simpa using hp
  · simp only [upd_ne _ _ _ ht]
    exact (ho t').mono (hk t' ht)

theorem held_ne (hi : HInv cfg H own F held) (hn : own n = .thr t) {t' : Nat} (ht : t' ≠ t) : n ∉ held t' := by
  intro hm
  have := (hi.hmem t' n).2 hm
  rw [hn] at this
  simp at this; exact ht this.symm

/-- How the lists of free nodes are related when a node is taken. -/
theorem taken {b : Bool} {σ : Pool} {H' : Heap α} {own' F' held'} (hi : HInv cfg H own F held) (hi' : HInv cfg H' own' F' held')
    (hu : ∀ k, k ∈ σ.used ↔ own k ≠ .raw ∧ own k ≠ .free) (hF : σ.free = F)
    (hg : (H' = H.malloc ∧ n = H.nalloc ∧ b = false) ∨
      (H.pool.ptr = some n ∧ H'.next = H.next ∧ H'.pool.ptr = (H.next n).ptr ∧ H'.nalloc = H.nalloc)) :
    Taken b σ n ⟨F', n :: σ.used⟩ := by
  rcases hg with ⟨rfl, rfl, hb⟩ | ⟨h1, h2, h3, -⟩
  · have hraw := (hi.raw _).2 (Nat.le_refl _)
    have hn : H.nalloc ∉ F := fun h => by have := (hi.fmem _).2 h; rw [hraw] at this; cases this
    have hc : Chain H.malloc.next H.malloc.pool.ptr F := hi.chain.congr fun m hm => by
      have : m ≠ H.nalloc := by rintro rfl; exact hn hm
      simp [Heap.malloc, upd_ne _ _ _ this]
    rw [hi'.chain.unique hc, ← hF]
    exact .fresh hb (by rw [hF]; exact hn) (by rw [hu, hraw]; simp)
  · obtain ⟨F₁, rfl, h4⟩ := hi.chain.head h1
    have hc := hi'.chain
    rw [h2, h3] at hc
    rw [hc.unique h4]
    exact .reuse hF

theorem Step.ofTaken {fixed b : Bool} {v : α} {thr : Bool} {σ σ' : Pool} (ht : Taken (fixed || b) σ n σ') :
    Step fixed σ (.construct b v thr) (if thr then .threw else .node (some n)) σ' := by
  cases thr
  · exact .got ht
  · exact .lost ht

end

/-- One step of the machine is one move of the canonical object. -/
theorem GInv.step (hf : R.Faithful) {N : Nat} {D : MConf (SMem R.K α) (PC R.K α)} {hist : History (Op α) Ret} {c : CState (spec α R.fixed N)}
    (hg : GInv R N hist D c.st c.status) (hop : ∀ t o, ((∃ P, c.status t = .pend o P) ∨ ∃ r, c.status t = .done o r) → Open hist t o) {ch s' p' e} (hs : Freelist.step R t D.s (D.pc t) ch = some (s', p', e)) (hok : okFresh R D.s (D.pc t) ch)
    (hd : Disciplined (hist ++ e.toList)) :
    ∃ c' : CState (spec α R.fixed N), CMove _ c e c' ∧ GInv R N (hist ++ e.toList) ⟨s', upd D.pc t p'⟩ c'.st c'.status := by
  obtain ⟨H, own, F, held, hsh, ht⟩ := hg
  have hme := ht t
  have hi := hsh.hinv
  obtain ⟨σ, status⟩ := c
  simp only at hsh ht hme hop ⊢
  cases hpc : D.pc t with
  | idle =>
    rw [hpc] at hme hs
    obtain ⟨hl, hst⟩ := hme
    cases ch with
    | call o =>
      cases o with
      | construct b v thr =>
        simp [Freelist.step] at hs
        obtain ⟨rfl, rfl, rfl⟩ := hs
        refine ⟨_, .inv hst, assemble (l := []) (own' := own) ht ?_ ⟨rfl, ⟨.load, trivial, trivial⟩, _, rfl, by simp⟩ fun t' _ => .refl ..⟩
        rw [← hl, upd_eq_self]
        have ho : owned (hist ++ (some (Event.inv t (.construct b v thr))).toList) = owned hist := owned_snoc ..
        refine { hsh with
          str := by rw [ho]; exact hsh.str, nodup := by rw [ho]; exact hsh.nodup, alive := by rw [ho]; exact hsh.alive
          vals := fun k v hm => ?_, lost := fun k hk => ?_, bound := fun hb => hsh.bound ?_ }
        · rcases hm.snoc with ⟨hm, -⟩ | ⟨_, _, _, he, _⟩
          · exact hsh.vals k v hm
          · cases he
        · obtain ⟨u, b, v, h⟩ := hsh.lost k hk
          exact ⟨u, b, v, List.mem_append_left _ h⟩
        · exact hb.imp id fun h u v thr hm => h u v thr (List.mem_append_left _ hm)
      | destruct k =>
        simp [Freelist.step] at hs
        obtain ⟨rfl, rfl, rfl⟩ := hs
        have hk := hd.last
        have hks := (hsh.str k).2 hk
        refine ⟨_, .inv hst, assemble (l := k :: held t) (own' := upd own k (.thr t)) ht ?_ ⟨by rw [hl], hsh.alive k hk, _, rfl⟩ fun t' _ => .refl ..⟩
        have ho : owned (hist ++ (some (Event.inv t (.destruct (α := α) k))).toList) = (owned hist).erase k := owned_snoc ..
        refine { hsh with
          hinv := HInv.claim hi hks, str := ?_, nodup := ?_, alive := ?_, used := ?_, vals := fun m v hm => ?_
          lost := fun m hm => ?_, bound := fun hb => hsh.bound ?_ }
        · intro m; rw [ho, hsh.nodup.mem_erase_iff, ← hsh.str m]; grind
        · rw [ho]; exact hsh.nodup.erase k
        · intro m hm; rw [ho] at hm; exact hsh.alive m (List.mem_of_mem_erase hm)
        · intro m; rw [hsh.used m]; grind
        · rcases hm.snoc with ⟨hm, -⟩ | ⟨_, _, _, he, _⟩
          · exact hsh.vals m v hm
          · cases he
        · obtain ⟨u, b, v, h⟩ := hsh.lost m (by grind)
          exact ⟨u, b, v, List.mem_append_left _ h⟩
        · exact hb.imp id fun h u v thr hm => h u v thr (List.mem_append_left _ hm)
    | _ => simp [Freelist.step] at hs
  | alloc b v thr a =>
    rw [hpc] at hme hs hok
    obtain ⟨hl, ⟨a', ha, hal⟩, P, hst, hP⟩ := hme
    simp only [Freelist.step] at hs
    cases hsa : saStep R b D.s a ch with
    | none => rw [hsa] at hs; simp at hs
    | some x =>
      obtain ⟨m, r⟩ := x
      rw [hsa] at hs
      have hfr := saFresh.fresh hsh.mem ha hok
      obtain ⟨H', r', h1, hm, hgr, hr⟩ := saStep_sim hf hsh.mem ha hok hsa
      have h2 := aStep_inv (t := t) hi hal hfr h1
      cases r with
      | more a₁ =>
        simp at hs
        obtain ⟨rfl, rfl, rfl⟩ := hs
        cases r' with
        | more a₁' =>
          obtain ⟨rfl, h3⟩ := h2
          simp only [Option.toList_none, List.append_nil]
          have hsh' : Shape R N hist m σ H' own F (upd held t []) := by rw [← hl, upd_eq_self]; exact { hsh with mem := hm }
          by_cases hex : ∃ o, a₁ = .test o ∧ R.K.node (R.K.ptr o.v) = none ∧ (R.fixed || b) = true
          · obtain ⟨o, rfl, hn, hb⟩ := hex
            cases a₁' with
            | test o' =>
              obtain ⟨-, rfl⟩ := aStep_to_test h1
              have hF : F = [] := by
                have h4 : R.K.node (R.K.ptr o.v) = H'.poolSnap.v.ptr := by
                  have hr' : SnapRel R H'.nalloc H'.poolVer H'.poolSnap o := hr
                  rw [hr'.val, hf.node (hr'.ok.mono hm.limit)]
                rw [hn] at h4
                have hc := hi.chain
                have h4 : H'.pool.ptr = none := h4.symm
                rw [h4] at hc
                exact hc.eq_nil
              have hnull : (spec α R.fixed N).step σ (.construct b v thr) (.node none) σ :=
                Step.null (σ := σ) hb (by rw [hsh.free, hF])
              refine ⟨_, .obs (r := .node none) hst hnull, assemble (l := []) ht hsh' ?_ fun t' _ => .refl ..⟩
              exact ⟨rfl, ⟨.test H'.poolSnap, hr, h3⟩, _, rfl, fun _ _ _ _ => .inr rfl⟩
            | _ => exact hr.elim
          · refine ⟨_, .stay _, ?_⟩
            have := assemble (N := N) (t := t) (l := []) (x := status t) (p' := .alloc b v thr a₁) ht hsh'
              ⟨rfl, ⟨_, hr, h3⟩, P, hst, fun o h4 h5 h6 => (hex ⟨o, h4, h5, h6⟩).elim⟩ fun t' _ => .refl ..
            rwa [upd_eq_self status] at this
        | _ => exact hr.elim
      | got k =>
        simp at hs
        obtain ⟨rfl, rfl, rfl⟩ := hs
        cases r' with
        | got k' =>
          obtain ⟨rfl, -⟩ := hr
          obtain ⟨F', h3, h4, h5, h6⟩ := h2
          have hgot := aStep_got hi hal hfr h1
          have htk := taken (b := R.fixed || b) hi h3.inv hsh.used hsh.free hgot
          simp only [Option.toList_none, List.append_nil]
          refine ⟨_, .lin hst (Step.ofTaken htk), assemble ht (l := k' :: held t) (H' := H') (own' := upd own k' (.thr t)) (F' := F') ?_
            ⟨by rw [hl], h5, b, rfl⟩ fun t' h => .of h3 hi h⟩
          have hk : k' ∉ σ.used := by rw [hsh.used]; rcases h4 with h4 | h4 <;> simp [h4]
          have hne : ∀ m ∈ owned hist, m ≠ k' := by rintro m hmm rfl; rw [(hsh.str m).2 hmm] at h4; simp at h4
          refine ⟨hm, h3.inv, fun m => ?_, hsh.nodup, fun m hmm => ?_, rfl, List.nodup_cons.2 ⟨hk, hsh.unodup⟩, fun m => ?_,
            fun m v hmm => ?_, fun m hmm => hsh.lost m ((h3.lost m).1 hmm), fun hb => ?_⟩
          · rw [h3.str, hsh.str]
          · rw [(h6 m (hne m hmm)).2.1]; exact hsh.alive m hmm
          · have := hsh.used m
            simp only [List.mem_cons]; grind
          · rw [(h6 m (hne m hmm.owned)).2.1]; exact hsh.vals m v hmm
          · rcases hgot with ⟨-, -, h7⟩ | ⟨-, -, -, h7⟩
            · rcases hb with hb | hb
              · rw [show R.cfg.fixed = R.fixed from rfl, hb] at h7; simp at h7
              · have h8 : b = false := by cases b <;> simp_all
                subst h8
                exact (hb t v thr (hop t _ (.inl ⟨P, hst⟩)).mem).elim
            · rw [h7, hsh.bound hb]
        | _ => exact hr.elim
      | null =>
        simp at hs
        obtain ⟨rfl, rfl, rfl⟩ := hs
        cases r' with
        | null =>
          obtain ⟨rfl, h3⟩ := h2
          obtain ⟨o', rfl, ho'⟩ := aStep_null h1
          simp only [Option.toList_none, List.append_nil]
          cases a with
          | test o =>
            have ha : SnapRel R H'.nalloc H'.poolVer o' o := ha
            have h4 : R.K.node (R.K.ptr o.v) = none := by rw [ha.val, hf.node (ha.ok.mono hm.limit), ho']
            refine ⟨_, .stay _, ?_⟩
            have := assemble (N := N) (t := t) (l := []) (x := status t) (p' := PC.ret (.node none)) ht (H' := H') (hist' := hist) (m' := m) (σ' := σ) (own' := own) (F' := F)
              (by rw [← hl, upd_eq_self]; exact { hsh with mem := hm })
              ⟨.inr ⟨_, P, hst, hP o rfl h4 h3⟩, rfl⟩ fun t' _ => .refl ..
            rwa [upd_eq_self status] at this
          | _ => exact ha.elim
        | _ => exact hr.elim
      | badAlloc =>
        simp at hs
        obtain ⟨rfl, rfl, rfl⟩ := hs
        cases r' with
        | badAlloc =>
          obtain ⟨rfl, h3⟩ := h2
          simp only [Option.toList_none, List.append_nil]
          refine ⟨_, .lin hst (.noMemory h3), assemble ht (l := []) (H' := H') (own' := own) (F' := F) ?_ ⟨.inl ⟨_, rfl⟩, rfl⟩ fun t' _ => .refl ..⟩
          rw [← hl, upd_eq_self]; exact { hsh with mem := hm }
        | _ => exact hr.elim
  | constr v thr k =>
    rw [hpc] at hme hs
    obtain ⟨hl, hdk, b, hst⟩ := hme
    have hown := (hi.hmem t k).2 (by rw [hl]; simp)
    cases ch with
    | go =>
      have hnd : (D.s.data k).isSome = false := by rw [hsh.mem.data, hdk]; rfl
      simp only [Freelist.step, hnd] at hs
      cases thr with
      | true =>
        simp at hs
        obtain ⟨rfl, rfl, rfl⟩ := hs
        simp only [Option.toList_none, List.append_nil]
        refine ⟨_, .stay _, ?_⟩
        have := assemble (N := N) (t := t) (l := []) (x := status t) (p' := PC.ret .threw) ht (H' := H) (hist' := hist) (m' := D.s) (σ' := σ) (own' := upd own k .lost)
          (F' := F) ?_ ⟨.inl ⟨_, hst⟩, rfl⟩ fun t' _ => .refl ..
        · rwa [upd_eq_self status] at this
        · have h1 := HInv.release hi hown (x := .lost) (.inr rfl)
          rw [hl] at h1
          simp only [List.erase_cons_head] at h1
          refine { hsh with hinv := h1, str := fun m => ?_, used := fun m => ?_, lost := fun m hm => ⟨t, b, v, (hop t _ (.inr ⟨_, hst⟩)).mem⟩ }
          · have := hsh.str m; grind
          · have := hsh.used m; grind
      | false =>
        simp at hs
        obtain ⟨rfl, rfl, rfl⟩ := hs
        simp only [Option.toList_none, List.append_nil]
        refine ⟨_, .stay _, ?_⟩
        have := assemble (N := N) (t := t) (l := [k]) (x := status t) (p' := PC.ret (.node (some k))) ht (H' := H.setData k (some v)) (hist' := hist)
          (m' := D.s.setData k (some v)) (σ' := σ) (own' := own)
          (F' := F) ?_ ⟨.inl ⟨_, hst⟩, rfl, b, v, false, hst, by simp [Heap.setData]⟩ fun t' h => .setData _ _ _ (held_ne hi hown h) _
        · rwa [upd_eq_self status] at this
        · rw [← hl, upd_eq_self]
          refine { hsh with
            mem := hsh.mem.setData k (some v), hinv := HInv.setData hi hown _, alive := fun m hm => ?_
            vals := fun m w hm => ?_ }
          · have h1 := hsh.alive m hm
            simp only [Heap.setData]; grind
          · have h1 := hsh.vals m w hm
            have h2 := (hsh.str m).2 hm.owned
            simp only [Heap.setData]; grind
    | _ => simp [Freelist.step] at hs
  | destroy k =>
    rw [hpc] at hme hs
    obtain ⟨hl, hdk, P, hst⟩ := hme
    have hown := (hi.hmem t k).2 (by rw [hl]; simp)
    cases ch with
    | go =>
      have hnd : (D.s.data k).isSome = true := by rw [hsh.mem.data]; exact Option.isSome_iff_ne_none.2 hdk
      simp [Freelist.step, hnd] at hs
      obtain ⟨rfl, rfl, rfl⟩ := hs
      simp only [Option.toList_none, List.append_nil]
      refine ⟨_, .stay _, ?_⟩
      have := assemble (N := N) (t := t) (l := [k]) (x := status t) (p' := PC.free k .load) ht (H' := H.setData k none) (hist' := hist)
        (m' := D.s.setData k none) (σ' := σ) (own' := own)
        (F' := F) ?_ ⟨rfl, by simp [Heap.setData], ⟨.load, trivial, trivial⟩, P, hst⟩ fun t' h => .setData _ _ _ (held_ne hi hown h) _
      · rwa [upd_eq_self status] at this
      · rw [← hl, upd_eq_self]
        refine { hsh with
          mem := hsh.mem.setData k none, hinv := HInv.setData hi hown _, alive := fun m hm => ?_
          vals := fun m w hm => ?_ }
        · have h1 := hsh.alive m hm
          have h2 := (hsh.str m).2 hm
          simp only [Heap.setData]; grind
        · have h1 := hsh.vals m w hm
          have h2 := (hsh.str m).2 hm.owned
          simp only [Heap.setData]; grind
    | _ => simp [Freelist.step] at hs
  | free k d =>
    rw [hpc] at hme hs
    obtain ⟨hl, hdk, ⟨d', hdr, hdl⟩, P, hst⟩ := hme
    have hmem : k ∈ held t := by rw [hl]; simp
    have hown := (hi.hmem t k).2 hmem
    have hlt : k < H.nalloc := by
      have := hi.raw k; rw [hown] at this; simp at this; exact this
    simp only [Freelist.step] at hs
    cases hsd : sdStep R D.s k d ch with
    | none => rw [hsd] at hs; simp at hs
    | some x =>
      obtain ⟨m, r⟩ := x
      rw [hsd] at hs
      obtain ⟨H', r', h1, hm, hgr, hr⟩ := sdStep_sim hf hsh.mem hlt hdr hsd
      have h2 := dStep_inv (t := t) hi hmem hdk hdl h1
      cases r with
      | some d₁ =>
        simp at hs
        obtain ⟨rfl, rfl, rfl⟩ := hs
        simp only [Option.toList_none, List.append_nil]
        cases r' with
        | some d₁' =>
          obtain ⟨h3, h4, -, h6, -⟩ := h2
          refine ⟨_, .stay _, ?_⟩
          have := assemble (N := N) (t := t) (l := [k]) (x := status t) (p' := PC.free k d₁) ht (H' := H') (hist' := hist)
            (m' := m) (σ' := σ) (own' := own) (F' := F) ?_ ⟨rfl, by rw [h6]; exact hdk, ⟨_, hr, h4⟩, P, hst⟩ fun t' h => .of h3 hi h
          · rwa [upd_eq_self status] at this
          · rw [← hl, upd_eq_self]
            exact { hsh with
              mem := hm, hinv := h3.inv, alive := by rw [h6]; exact hsh.alive, vals := by rw [h6]; exact hsh.vals
              bound := by rw [(dStep_ver h1).2]; exact hsh.bound }
        | none => exact hr.elim
      | none =>
        simp at hs
        obtain ⟨rfl, rfl, rfl⟩ := hs
        simp only [Option.toList_none, List.append_nil]
        cases r' with
        | none =>
          obtain ⟨F', h3, h4, h5, -⟩ := h2
          obtain ⟨-, h7, h8⟩ := dStep_end hdl h1
          have hF : F' = k :: F := by
            have hc := h3.inv.chain
            rw [h7, h4] at hc
            refine hc.unique ⟨rfl, ?_⟩
            rw [h8]; exact hi.chain
          have hku : k ∈ σ.used := by rw [hsh.used, hown]; simp
          have h9 := h3.inv
          rw [hl] at h9
          simp only [List.erase_cons_head] at h9
          refine ⟨_, .lin hst (.destruct hku), assemble ht (l := []) (H' := H') (own' := upd own k .free) (F' := F') ?_ ⟨.inl ⟨_, rfl⟩, rfl⟩
            fun t' h => .of h3 hi h⟩
          refine ⟨hm, h9, fun m => ?_, hsh.nodup, by rw [h5]; exact hsh.alive, ?_, hsh.unodup.erase k, fun m => ?_,
            by rw [h5]; exact hsh.vals, fun m hmm => hsh.lost m ((h3.lost m).1 hmm), by rw [(dStep_ver h1).2]; exact hsh.bound⟩
          · rw [h3.str, hsh.str]
          · show k :: σ.free = F'
            rw [hF, hsh.free]
          · have := hsh.used m
            rw [hsh.unodup.mem_erase_iff]; grind
        | some _ => exact hr.elim
  | ret r =>
    rw [hpc] at hme hs
    obtain ⟨hst, hr⟩ := hme
    cases ch with
    | go =>
      simp [Freelist.step] at hs
      obtain ⟨rfl, rfl, rfl⟩ := hs
      have key : GInv R N (hist ++ (some (Event.res (Op := Op α) t r)).toList) ⟨D.s, upd D.pc t .idle⟩ σ (upd status t .idle) := by
        have ho : owned (hist ++ (some (Event.res (Op := Op α) t r)).toList) = ownedStep (α := α) (owned hist) (.res t r) := owned_snoc ..
        by_cases hex : ∃ k, r = .node (some k)
        · obtain ⟨k, rfl⟩ := hex
          obtain ⟨hl, b, v, thr, hst', hdk⟩ := hr
          have hown := (hi.hmem t k).2 (by rw [hl]; simp)
          have h1 := HInv.release hi hown (x := .str) (.inl rfl)
          rw [hl] at h1
          simp only [List.erase_cons_head] at h1
          refine assemble ht (l := []) (H' := H) (own' := upd own k .str) (F' := F) ?_ ⟨rfl, rfl⟩ fun t' _ => .refl ..
          have ho : owned (hist ++ (some (Event.res (Op := Op α) t (.node (some k)))).toList) = k :: owned hist := ho
          have hk : k ∉ owned hist := by rw [← hsh.str, hown]; simp
          refine { hsh with
            hinv := h1, str := fun m => ?_, nodup := ?_, alive := fun m hm => ?_, used := fun m => ?_
            vals := fun m w hm => ?_, lost := fun m hm => ?_, bound := fun hb => hsh.bound ?_ }
          · have := hsh.str m; rw [ho, List.mem_cons]; grind
          · rw [ho]; exact List.nodup_cons.2 ⟨hk, hsh.nodup⟩
          · rw [ho, List.mem_cons] at hm
            rcases hm with rfl | hm
            · rw [hdk]; simp
            · exact hsh.alive m hm
          · have := hsh.used m; grind
          · rcases hm.snoc with ⟨hm, -⟩ | ⟨_, _, _, he, ho'⟩
            · exact hsh.vals m w hm
            · cases he
              have := ho'.unique (hop t _ (.inr ⟨_, hst'⟩))
              cases this
              exact hdk
          · obtain ⟨u, b, v, h⟩ := hsh.lost m (by grind)
            exact ⟨u, b, v, List.mem_append_left _ h⟩
          · exact hb.imp id fun h u v thr hm => h u v thr (List.mem_append_left _ hm)
        · have hl : held t = [] := by
            cases r with
            | node o =>
              cases o with
              | none => exact hr
              | some k => exact (hex ⟨k, rfl⟩).elim
            | threw => exact hr
            | done => exact hr
          have ho : owned (hist ++ (some (Event.res (Op := Op α) t r)).toList) = owned hist := by
            rw [ho]
            cases r with
            | node o =>
              cases o with
              | none => rfl
              | some k => exact (hex ⟨k, rfl⟩).elim
            | threw => rfl
            | done => rfl
          refine assemble ht (l := []) (H' := H) (own' := own) (F' := F) ?_ ⟨rfl, rfl⟩ fun t' _ => .refl ..
          rw [← hl, upd_eq_self]
          refine { hsh with
            str := by rw [ho]; exact hsh.str, nodup := by rw [ho]; exact hsh.nodup, alive := by rw [ho]; exact hsh.alive
            vals := fun m w hm => ?_, lost := fun m hm => ?_, bound := fun hb => hsh.bound ?_ }
          · rcases hm.snoc with ⟨hm, -⟩ | ⟨_, _, _, he, ho'⟩
            · exact hsh.vals m w hm
            · cases he; exact (hex ⟨m, rfl⟩).elim
          · obtain ⟨u, b, v, h⟩ := hsh.lost m hm
            exact ⟨u, b, v, List.mem_append_left _ h⟩
          · exact hb.imp id fun h u v thr hm => h u v thr (List.mem_append_left _ hm)
      rcases hst with ⟨o, hst⟩ | ⟨o, P, hst, hP⟩
      · exact ⟨_, .res hst, key⟩
      · exact ⟨_, .resObs hst hP, key⟩
    | _ => simp [Freelist.step] at hs
  | err => rw [hpc] at hme; exact hme.elim

theorem downFrom_eq (n : Nat) : downFrom 0 n = (List.range n).reverse := by
  induction n with
  | zero => rfl
  | succ n ih => simp [downFrom, List.range_succ, ih]

theorem GInv.initial (hf : R.Faithful) {N : Nat} (hN : N ≤ R.limit) :
    GInv R N ([] : History (Op α) Ret) ⟨SMem.initial R N, fun _ => .idle⟩ (CState.initial (spec α R.fixed N)).st (CState.initial (spec α R.fixed N)).status := by
  refine ⟨Heap.initial N, initOwn N, _, _, ⟨(MemRel.initial hf hN).1, HInv.initial _ N, ?_, ?_, ?_, (downFrom_eq N).symm, List.nodup_nil, ?_, ?_, ?_, ?_⟩,
    fun t => ⟨rfl, rfl⟩⟩
  · intro k; simp only [initOwn, owned]; simp; split <;> simp
  · simp [owned]
  · simp [owned]
  · intro k; show k ∈ [] ↔ _; simp only [initOwn]; split <;> simp
  · intro k v hm; have := hm.owned; simp [owned] at this
  · intro k hk; simp only [initOwn] at hk; split at hk <;> cases hk
  · intro _
    have := (MemRel.initial (α := α) hf hN)
    rw [← this.1.nalloc, this.2]

/-- Every execution of the machine for disciplined users is one of the canonical object. -/
theorem ginv (hf : R.Faithful) {N : Nat} (hN : N ≤ R.limit) {hist : History (Op α) Ret} {D : MConf (SMem R.K α) (PC R.K α)}
    (hx : MSteps (smach α R) (okFresh R) ⟨SMem.initial R N, fun _ => .idle⟩ hist D) (hd : Disciplined hist) :
    ∃ c : CState (spec α R.fixed N), CReach _ hist c ∧ GInv R N hist D c.st c.status := by
  generalize hD : (⟨SMem.initial R N, fun _ => .idle⟩ : MConf (SMem R.K α) (PC R.K α)) = D₀ at hx
  induction hx with
  | refl => subst hD; exact ⟨_, .init, GInv.initial hf hN⟩
  | step _ hs hok ih =>
    obtain ⟨c, h1, h2⟩ := ih hd.left
    obtain ⟨c', h3, h4⟩ := h2.step hf (open_of_reach h1) hs hok hd
    exact ⟨c', .move h1 h3, h4⟩

end Verif.Freelist
