import Verif.Spsc.StressProg

/-!
# The stress tests of `spsc_queue` pass (C66)
-/

namespace Verif.Spsc.Stress
open User

/-! ### The writer -/

/-- The number of elements the writer has pushed, added to `working_set`, generated, and counted. -/
def acc (x : Plan) : At → Nat
  | .forTest i | .fill i _ | .insert i _ _ => i
  | .push i _ p | .threw i p => i + p
  | .counted i => i + x.size
  | _ => x.total

def made (x : Plan) : At → Nat
  | .forTest i => i
  | .fill i buf | .insert i buf _ => i + buf.length
  | .push i _ _ | .threw i _ | .counted i => i + x.size
  | _ => x.total

def gen (x : Plan) : At → Nat
  | .insert i buf _ => i + buf.length + 1
  | k => made x k

def counted (x : Plan) : At → Nat
  | .forTest i | .fill i _ | .insert i _ _ | .push i _ _ | .threw i _ | .counted i => i
  | _ => x.total

/-- Places of the writer. -/
def Writes (x : Plan) : At → Prop
  | .forTest _ | .counted _ | .report | .leave | .ended => True
  | .fill i buf => buf = List.range' (x.first + i + 1) buf.length ∧ buf.length ≤ x.size
  | .insert i buf v => buf = List.range' (x.first + i + 1) buf.length ∧ buf.length < x.size ∧ v = x.first + i + buf.length + 1
  | .push i buf p => buf = List.range' (x.first + i + 1) x.size ∧ p < x.size
  | .threw _ p => p < x.size
  | _ => False

/-- The writer has stored `running`. -/
def Gone : At → Prop
  | .leave | .ended => True
  | _ => False

/-! ### The reader -/

/-- The elements in the hands of the reader: in `working_set`, though popped. -/
def hands : At → List Nat
  | .take _ vs | .dec _ vs | .erase _ vs => vs
  | _ => []

/-- Elements not yet counted in `received_nodes`, `spsc_queue_cnt`. -/
def untaken : At → Nat
  | .take _ vs => vs.length
  | _ => 0

def undec : At → Nat
  | .take _ vs | .dec _ vs => vs.length
  | _ => 0

/-- Places of the reader. -/
def ReadsAt : At → Prop
  | .pop _ | .take _ _ | .dec _ _ | .erase _ _ | .test _ | .rthrew | .leave | .ended => True
  | _ => False

/-- The reader has seen that the writer has finished. -/
def Past : At → Prop
  | .pop l | .take l _ | .dec l _ | .erase l _ => l = true
  | .leave | .ended => True
  | _ => False

/-! ### `run` -/

/-- Places of `run`; what it has waited for. -/
def Main (g : Vars) : At → Prop
  | .joinWriter => True
  | .joinReader => g.ended 0 = true
  | .checkReceived | .checkCnt | .checkSet | .passed => g.ended 0 = true ∧ g.ended 1 = true
  | _ => False

end Verif.Spsc.Stress

namespace Verif.Spsc.Code
open Lin Text Stress

variable {cfg : Cfg} {sc : Bool} {N : Nat} {h h' : History (Op Nat) (Ret Nat)} {x : Plan} {C : SConf}

/-- The call a thread is in. -/
def inCallOf (x : Plan) : SPC → Option (Op Nat)
  | .at _ => none
  | .call k _ => some (opAt x k)

/-- Invariant: `w`, `r`, `m` are the places of writer, reader, and `run`. -/
structure SInv (x : Plan) (h : History (Op Nat) (Ret Nat)) (s : St Nat) (g : Vars) (w r m : SPC) : Prop where
  writes : Writes x w.here
  reads : ReadsAt r.here
  main : ∃ k, m = .at k ∧ Main g k
  didW : ∃ cs, Did 0 h cs (inCallOf x w)
  didR : ∃ cs, Did 1 h cs (inCallOf x r)
  gen : g.generator = x.first + Stress.gen x w.here
  acc : accepted h = List.range' (x.first + 1) (Stress.acc x w.here)
  hands : Stress.hands r.here <:+ delivered h
  set : ∃ e, e + (Stress.hands r.here).length = (delivered h).length ∧
    g.working_set = List.range' (x.first + e + 1) (Stress.made x w.here - e) ∧ e ≤ Stress.made x w.here
  received : g.received + untaken r.here = (delivered h).length
  cnt : g.cnt = Stress.counted x w.here - ((delivered h).length : Int) + undec r.here
  running : g.running = false ↔ Gone w.here
  knows : Stress.Past r.here → g.running = false ∧ s.vc.w = s.wlast
  empty : r = .at .leave ∨ r = .at .ended → s.acc.length = s.rel
  endedW : g.ended 0 = true → w = .at .ended
  endedR : g.ended 1 = true → r = .at .ended

theorem range'_prefix {a n : Nat} {l : List Nat} (hl : l <+: List.range' a n) : l = List.range' a l.length ∧ l.length ≤ n := by
  have h1 := hl.length_le
  rw [List.length_range'] at h1
  refine ⟨?_, h1⟩
  have h2 := List.prefix_iff_eq_take.1 hl
  rw [show n = l.length + (n - l.length) by omega, ← List.range'_append_1, List.take_left' (by simp)] at h2
  exact h2

theorem offers_push {i p : Nat} {buf : List Nat} (h1 : buf = List.range' (x.first + i + 1) x.size) (h2 : p < x.size) :
    buf.drop p = List.range' (x.first + i + p + 1) (x.size - p) ∧ offers (x.push (buf.drop p)) = buf.drop p := by
  have h3 : buf.drop p = List.range' (x.first + i + p + 1) (x.size - p) := by
    rw [h1, List.drop_range']
    congr 1
    omega
  refine ⟨h3, ?_⟩
  simp only [Plan.push]
  split
  · rename_i hb
    have : x.size = 1 := by simp [Plan.size, hb]
    have : x.size - p = 1 := by omega
    rw [h3, this]
    rfl
  · rfl

abbrev SAll (x : Plan) (h : History (Op Nat) (Ret Nat)) (C : SConf) : Prop := SInv x h C.s.1 C.s.2 (C.pc 0) (C.pc 1) (C.pc 2)

abbrev SSince (cfg : Cfg) (sc : Bool) (x : Plan) (h : History (Op Nat) (Ret Nat)) (C : SConf) : Prop :=
  User.Since (program Nat cfg sc).mach (script x) .absent (Program.ok okCall) St.initial (Vars.init x) Stress.start id (opAt x) (SAll x) h C

/-- The elements popped so far. -/
theorem SInv.order (hN : Holds cfg N) {w r m : SPC} {s : St Nat} {g : Vars} {D : TConf Nat} (hx : TextExec cfg sc h D) (hi : SInv x h s g w r m)
    (hw : ∀ k p, w = .call k p → (script x).calls k ≠ none) :
    delivered h = List.range' (x.first + 1) (delivered h).length ∧ (delivered h).length ≤ made x w.here := by
  obtain ⟨l, h1, h2⟩ := spsc_text_fifo hN hx
  obtain ⟨cs, h3⟩ := hi.didW
  have h4 := hi.writes
  have h5 := hi.acc
  cases w with
  | «at» k =>
    rw [pendingOp_none h3] at h1
    simp only [Option.elim_none, List.prefix_nil] at h1
    subst h1
    rw [List.append_nil, h5] at h2
    obtain ⟨h6, h7⟩ := range'_prefix h2
    refine ⟨h6, Nat.le_trans h7 ?_⟩
    simp only [User.PC.here] at h4 ⊢
    cases k <;> simp only [Stress.acc, made, Writes] at h4 ⊢ <;> omega
  | call k p =>
    have h6 := hw k p rfl
    simp only [User.PC.here] at h4 h5 ⊢
    cases k <;> simp only [script, scriptWith, ne_eq, not_true_eq_false, Writes] at h4 h6
    rename_i i buf q
    rw [pendingOp_some h3] at h1
    simp only [Option.elim_some, opAt] at h1
    obtain ⟨h7, h8⟩ := offers_push h4.1 h4.2
    rw [h8, h7] at h1
    obtain ⟨h9, h10⟩ := range'_prefix h1
    rw [h9, h5] at h2
    simp only [Stress.acc] at h2
    rw [show x.first + i + q + 1 = x.first + 1 + (i + q) by omega, List.range'_append_1] at h2
    obtain ⟨h11, h12⟩ := range'_prefix h2
    refine ⟨h11, Nat.le_trans h12 ?_⟩
    simp only [made]
    omega

theorem here_at (k : Stress.At) : (User.PC.at k : SPC).here = k := rfl
theorem here_call (k : Stress.At) (q) : (User.PC.call k q : SPC).here = k := rfl

theorem accepted_snoc {cs : List (Op Nat × Ret Nat)} {o r} (hd : Did 0 h cs (some o)) : accepted (h ++ [.res 0 r]) = accepted h ++ accepts (o, r) := by
  simp only [accepted, (hd.res r).callsOf, hd.callsOf, List.flatMap_append, List.flatMap_singleton]

theorem delivered_snoc {cs : List (Op Nat × Ret Nat)} {o r} (hd : Did 1 h cs (some o)) : delivered (h ++ [.res 1 r]) = delivered h ++ delivers (o, r) := by
  simp only [delivered, (hd.res r).callsOf, hd.callsOf, List.flatMap_append, List.flatMap_singleton]

theorem callsOf_inv {t : Nat} {cs : List (Op Nat × Ret Nat)} {o} (hd : Did t h cs none) : callsOf t (h ++ [.inv t o]) = callsOf t h := by
  rw [(hd.inv o).callsOf, hd.callsOf]

theorem callsOf_other {t : Nat} {e : Event (Op Nat) (Ret Nat)} (he : e.tid ≠ t) : callsOf t (h ++ [e]) = callsOf t h := by
  simp only [callsOf, ofThread_append, ofThread_ne he, List.append_nil]

/-- A call of `push` ends. -/
theorem pushed_post {cap : Nat} {s₁ s₂ : St Nat} {i p : Nat} {buf : List Nat} {r} (h1 : buf = List.range' (x.first + i + 1) x.size) (h2 : p < x.size)
    (hp : producerPost cap s₁ s₂ (x.push (buf.drop p)) r) :
    (∃ k, x.pushed r = some k ∧ p + k ≤ x.size ∧ accepts (x.push (buf.drop p), r) = List.range' (x.first + i + p + 1) k) ∨
      x.pushed r = none ∧ accepts (x.push (buf.drop p), r) = [] := by
  obtain ⟨h3, h4⟩ := offers_push h1 h2
  simp only [Plan.push, Plan.pushed] at hp h4 ⊢
  cases hb : x.buffer with
  | none =>
    simp only [hb] at hp h4 ⊢
    cases r with
    | pushed b =>
      refine .inl ⟨_, rfl, ?_, ?_⟩
      · cases b <;> simp <;> omega
      · have h5 : x.size = 1 := by simp [Plan.size, hb]
        have h6 : x.size - p = 1 := by omega
        rw [h3, h6]
        cases b <;> rfl
    | threw => exact .inr ⟨rfl, rfl⟩
    | _ => exact hp.elim
  | some n =>
    simp only [hb] at hp h4 ⊢
    cases r with
    | pushedMany k =>
      obtain ⟨j, _, h5, _⟩ := hp
      have h6 : k ≤ (buf.drop p).length := by omega
      have h7 : (buf.drop p).length = x.size - p := by rw [h3]; simp
      refine .inl ⟨k, rfl, by omega, ?_⟩
      simp only [accepts]
      rw [h3, show x.size - p = k + (x.size - p - k) by omega, ← List.range'_append_1, List.take_left' (by simp)]
    | threw => exact .inr ⟨rfl, rfl⟩
    | _ => exact hp.elim

/-- Steps of the writer. -/
theorem SInv.writer (hN : Holds cfg N) (h0 : 0 < x.size) (hx : StressRuns cfg sc x h C) (hi : SAll x h C) (hc : SSince cfg sc x h C) {ch σ' p' e}
    (hs : (User.mach (program Nat cfg sc).mach (script x) .absent).step 0 C.s (C.pc 0) ch = some (σ', p', e))
    (hok : User.okBy (program Nat cfg sc).mach (script x) (Program.ok okCall) C.s (C.pc 0) ch) :
    SInv x (h ++ e.toList) σ'.1 σ'.2 p' (C.pc 1) (C.pc 2) := by
  have hs' := User.trans_of_step hs
  have htd := User.Runs.tidy (sr := id) stress_plays stress_reads hx
  obtain ⟨s₂, g₂⟩ := σ'
  simp only at hs' ⊢
  obtain ⟨cs, hd⟩ := hi.didW
  have hw := hi.writes
  have hg := hi.gen
  have hrun := hi.running
  have hew := hi.endedW
  have hacc := hi.acc
  have hset := hi.set
  have hcnt := hi.cnt
  have hpast : ¬ Gone (C.pc 0).here → ¬ Stress.Past (C.pc 1).here := fun h1 h2 => h1 (hi.running.1 (hi.knows h2).1)
  generalize hp : C.pc 0 = p at hs' hw hg hrun hew hacc hset hcnt hpast hd
  have mk : (∀ ev, e = some ev → ev.tid = 0) → Writes x p'.here → (∃ cs, Did 0 (h ++ e.toList) cs (inCallOf x p')) →
      g₂.generator = x.first + Stress.gen x p'.here → accepted (h ++ e.toList) = List.range' (x.first + 1) (Stress.acc x p'.here) →
      (∀ e, C.s.2.working_set = List.range' (x.first + e + 1) (made x p.here - e) → e ≤ made x p.here →
        g₂.working_set = List.range' (x.first + e + 1) (made x p'.here - e) ∧ e ≤ made x p'.here) →
      g₂.received = C.s.2.received → g₂.cnt - Stress.counted x p'.here = C.s.2.cnt - Stress.counted x p.here →
      (g₂.running = false ↔ Gone p'.here) → (C.s.2.running = false → g₂.running = false) → (Stress.Past (C.pc 1).here → s₂ = C.s.1) →
      (g₂.ended 0 = true → p' = .at .ended) → g₂.ended 1 = C.s.2.ended 1 → (C.s.2.ended 0 = true → g₂.ended 0 = true) →
      SInv x (h ++ e.toList) s₂ g₂ p' (C.pc 1) (C.pc 2) := by
    intro a0 a1 a2 a3 a4 a5 a6 a7 a8 a9 a10 a11 a12 a13
    have c0 : callsOf 1 (h ++ e.toList) = callsOf 1 h := by
      cases e with
      | none => simp
      | some ev => exact callsOf_other (by rw [a0 ev rfl]; decide)
    have c1 : delivered (h ++ e.toList) = delivered h := by simp only [delivered, c0]
    refine ⟨a1, hi.reads, ?_, a2, ?_, a3, a4, ?_, ?_, ?_, ?_, a8, ?_, ?_, a11, ?_⟩
    · obtain ⟨k, c1, c2⟩ := hi.main
      refine ⟨k, c1, ?_⟩
      cases k <;> simp only [Main] at c2 ⊢
      · exact a13 c2
      all_goals exact ⟨a13 c2.1, a12 ▸ c2.2⟩
    · obtain ⟨cs, c2⟩ := hi.didR
      refine ⟨cs, ?_⟩
      cases e with
      | none => simpa using c2
      | some ev => exact c2.other (by rw [a0 ev rfl]; decide)
    · rw [c1]; exact hi.hands
    · obtain ⟨e, c2, c3, c4⟩ := hset
      rw [c1]
      exact ⟨e, c2, a5 e c3 c4⟩
    · rw [c1, a6]; exact hi.received
    · rw [c1]; omega
    · intro hpa; exact ⟨a9 (hi.knows hpa).1, by rw [a10 hpa]; exact (hi.knows hpa).2⟩
    · intro hr
      rw [a10 (by rcases hr with hr | hr <;> rw [hr] <;> trivial)]
      exact hi.empty hr
    · rw [a12]; exact hi.endedR
  cases hs' with
  | @call k b ch s' q e hk hst =>
    obtain ⟨o, rfl, ho⟩ := stress_reads.call _ _ hk _ _ _ _ _ hst
    simp only [id] at ho
    subst ho
    have hng : ¬ Gone k := by cases k <;> simp only [script, scriptWith] at hk <;> cases hk <;> exact id
    refine mk (by rintro _ ⟨⟩; rfl) hw ⟨cs, hd.inv _⟩ hg ?_ (fun e h1 h2 => ⟨h1, h2⟩) (by trivial) (by trivial) hrun id (fun h1 => absurd h1 (hpast hng)) (fun h1 => ?_) (by trivial) id
    · simp only [Option.toList_some, accepted, callsOf_inv hd]
      exact hacc
    · have := hew h1
      cases this
      exact absurd trivial hng
  | @act k b g' l k' s' hk hac hq =>
    simp only [User.PC.here] at hw hg hrun hacc hset hcnt hpast mk
    have hl : l = [] → s₂ = C.s.1 := by
      rintro rfl
      simp only [Example.quiet] at hq
      cases hq; rfl
    simp only [Option.toList_none, List.append_nil] at mk ⊢
    cases k <;> simp only [Writes] at hw <;> simp only [script, scriptWith] at hac
    case forTest i =>
      by_cases hit : i = x.total
      · rw [if_pos hit] at hac
        cases hac
        subst hit
        exact mk nofun trivial ⟨cs, hd⟩ hg hacc (fun e h1 h2 => ⟨h1, h2⟩) rfl rfl
          hrun id (fun _ => hl rfl) (fun h1 => by cases hew h1) (by trivial) id
      · rw [if_neg hit] at hac
        cases hac
        exact mk nofun ⟨by simp, by simp⟩ ⟨cs, hd⟩ hg hacc (fun e h1 h2 => ⟨h1, h2⟩) (by trivial) (by trivial) hrun id (fun _ => hl rfl) (fun h1 => by cases hew h1) (by trivial) id
    case fill i buf =>
      by_cases hit : buf.length = x.size
      · rw [if_pos hit] at hac
        cases hac
        exact mk nofun ⟨hit ▸ hw.1, h0⟩ ⟨cs, hd⟩ (by simpa [Stress.gen, made, hit] using hg) hacc
          (fun e h1 h2 => by simp only [made, hit] at h1 h2 ⊢; exact ⟨h1, h2⟩) (by trivial) (by trivial) hrun id (fun _ => hl rfl) (fun h1 => by cases hew h1) (by trivial) id
      · rw [if_neg hit] at hac
        cases hac
        simp only [Stress.gen, made] at hg
        exact mk nofun ⟨hw.1, by omega, by rw [hg]; omega⟩ ⟨cs, hd⟩ (by simp only [Stress.gen, hg]; omega) hacc
          (fun e h1 h2 => ⟨h1, h2⟩) (by trivial) (by trivial) hrun id (fun _ => hl rfl) (fun h1 => by cases hew h1) (by trivial) id
    case insert i buf v =>
      cases hac
      obtain ⟨hw1, hw2, hw3⟩ := hw
      have hlen : (buf ++ [v]).length = buf.length + 1 := by simp
      refine mk nofun ⟨?_, by omega⟩ ⟨cs, hd⟩ (by simp only [Stress.gen, made, hlen] at hg ⊢; omega) hacc
          (fun e h1 h2 => ?_) (by trivial) (by trivial) hrun id (fun _ => hl rfl) (fun h1 => by cases hew h1) (by trivial) id
      · rw [hlen, List.range'_concat, ← hw1, hw3]
        congr 2
        omega
      · simp only [made, hlen] at h1 h2 ⊢
        refine ⟨?_, by omega⟩
        have hn : v ∉ C.s.2.working_set := by
          rw [h1, List.mem_range'_1]
          omega
        rw [insertNew, if_neg hn, h1, show i + (buf.length + 1) - e = i + buf.length - e + 1 by omega, List.range'_concat]
        congr 2
        omega
    case counted i =>
      cases hac
      exact mk nofun trivial ⟨cs, hd⟩ hg hacc (fun e h1 h2 => ⟨h1, h2⟩) rfl (by simp only [Stress.counted]; omega)
          hrun id (fun _ => hl rfl) (fun h1 => by cases hew h1) (by trivial) id
    case report =>
      cases hac
      exact mk nofun trivial ⟨cs, hd⟩ hg hacc (fun e h1 h2 => ⟨h1, h2⟩) rfl rfl
          (by simp [Gone]) (fun _ => rfl) (fun _ => hl rfl) (fun h1 => by cases hew h1) (by trivial) id
    case leave =>
      cases hac
      exact mk nofun trivial ⟨cs, hd⟩ hg hacc (fun e h1 h2 => ⟨h1, h2⟩) (by trivial) (by trivial) hrun id (fun _ => hl rfl) (fun _ => rfl) rfl (fun _ => by simp)
    all_goals cases hac
  | @inside k q ch s' q' e hst hne =>
    obtain ⟨hb1, hb2, -⟩ := htd.busy 0 _ _ hp
    have hng : ¬ Gone k := by cases k <;> simp only [script, scriptWith, ne_eq, not_true_eq_false] at hb2 <;> exact id
    rcases (stress_plays (x := x)).step _ _ _ _ _ _ _ hb1 hst with ⟨rfl, _⟩ | ⟨r, h3, _⟩
    · simp only [Option.toList_none, List.append_nil] at mk ⊢
      refine mk nofun hw ⟨cs, hd⟩ hg hacc (fun e h1 h2 => ⟨h1, h2⟩) (by trivial) (by trivial) hrun id (fun h1 => absurd h1 (hpast hng)) (fun h1 => ?_) (by trivial) id
      have := hew h1
      cases this
    · exact absurd h3 (hne _ _)
  | @finish k q ch s' q' u r hst =>
    obtain ⟨hb1, hb2, -⟩ := htd.busy 0 _ _ hp
    have hng : ¬ Gone k := by cases k <;> simp only [script, scriptWith, ne_eq, not_true_eq_false] at hb2 <;> exact id
    have hu : u = 0 := by
      rcases (stress_plays (x := x)).step _ _ _ _ _ _ _ hb1 hst with ⟨h3, _⟩ | ⟨r, h3, _⟩
      · cases h3
      · cases h3; rfl
    subst hu
    obtain ⟨h₁, C₁, h₂, o, b1, b2, b3, b4, b5, b6, b7⟩ := User.Runs.whole stress_plays stress_reads hx hc hp hs hok
    have hpost := spsc_text_producer_call hN (stress_exec b1) (by simp only [User.baseOf, b3]; rfl) b5 b6
    simp only [id] at b7
    subst b7
    cases k <;> simp only [script, scriptWith, ne_eq, not_true_eq_false] at hb2
    case pop => exact hw.elim
    rename_i i buf n
    simp only [User.PC.here, Writes] at hw hg hrun hacc hset hcnt hpast mk
    have hend : ∀ k, C.s.2.ended 0 = true → User.PC.at ((script x).next k r) = (.at .ended : SPC) := fun k h1 => by cases hew h1
    have hacc' := accepted_snoc hd (r := r)
    have hd' := hd.res r
    simp only [opAt] at hacc' hpost
    simp only [Option.toList_some] at mk ⊢
    rcases pushed_post hw.1 hw.2 hpost with ⟨j, e1, e2, e3⟩ | ⟨e1, e2⟩
    · have e4 : accepted (h ++ [.res 0 r]) = List.range' (x.first + 1) (i + n + j) := by
        rw [hacc', hacc, e3, ← List.range'_append_1]
        simp only [Stress.acc]
        congr 2
        omega
      by_cases hj : n + j = x.size
      · have e5 : (script x).next (.push i buf n) r = .counted i := by simp only [script, scriptWith, e1, if_pos hj]
        rw [e5] at mk ⊢
        exact mk (by rintro _ ⟨⟩; rfl) trivial ⟨_, hd'⟩ hg (by rw [e4]; simp only [Stress.acc]; congr 1; omega) (fun e h1 h2 => ⟨h1, h2⟩) (by trivial) (by trivial) hrun id
          (fun h1 => absurd h1 (hpast hng)) (fun h1 => by cases hew h1) (by trivial) id
      · have e5 : (script x).next (.push i buf n) r = .push i buf (n + j) := by simp only [script, scriptWith, e1, if_neg hj]
        rw [e5] at mk ⊢
        exact mk (by rintro _ ⟨⟩; rfl) ⟨hw.1, by omega⟩ ⟨_, hd'⟩ hg (by rw [e4]; simp only [Stress.acc]; congr 1; omega) (fun e h1 h2 => ⟨h1, h2⟩) (by trivial) (by trivial) hrun id
          (fun h1 => absurd h1 (hpast hng)) (fun h1 => by cases hew h1) (by trivial) id
    · have e5 : (script x).next (.push i buf n) r = .threw i n := by simp only [script, scriptWith, e1]
      rw [e5] at mk ⊢
      exact mk (by rintro _ ⟨⟩; rfl) hw.2 ⟨_, hd'⟩ hg (by rw [hacc', e2, List.append_nil]; exact hacc) (fun e h1 h2 => ⟨h1, h2⟩) (by trivial) (by trivial) hrun id
          (fun h1 => absurd h1 (hpast hng)) (fun h1 => by cases hew h1) (by trivial) id

/-- A call of `pop` ends. -/
theorem popped_post {s₁ s₂ : St Nat} {r} (h0 : 0 < x.size) (hp : consumerPost s₁ s₂ x.pop r) :
    (x.popped r = some [] ∧ delivers (x.pop, r) = [] ∧ SeenAccepted s₁ s₂ s₁.rel ∧ s₂.rel = s₁.rel) ∨
      (∃ v vs, x.popped r = some (v :: vs) ∧ delivers (x.pop, r) = v :: vs) ∨ x.popped r = none ∧ delivers (x.pop, r) = [] := by
  simp only [Plan.pop, Plan.popped] at hp ⊢
  cases hb : x.buffer with
  | none =>
    simp only [hb] at hp ⊢
    cases r with
    | popped v =>
      cases v with
      | none => exact .inl ⟨rfl, rfl, hp.1, hp.2.1⟩
      | some v => exact .inr (.inl ⟨v, [], rfl, rfl⟩)
    | threw => exact .inr (.inr ⟨rfl, rfl⟩)
    | _ => exact hp.elim
  | some n =>
    have hn : 0 < n := by simpa [Plan.size, hb] using h0
    simp only [hb] at hp ⊢
    cases r with
    | poppedMany vs =>
      cases vs with
      | nil =>
        obtain ⟨k, h1, h2, h3, -, h4, -⟩ := hp
        simp only [List.length_nil, atMost] at h3 h4
        have : k = s₁.rel := by omega
        subst this
        exact .inl ⟨rfl, rfl, h1, h4⟩
      | cons v vs => exact .inr (.inl ⟨v, vs, rfl, rfl⟩)
    | threw => exact .inr (.inr ⟨rfl, rfl⟩)
    | _ => exact hp.elim

theorem gone_at (hx : StressRuns cfg sc x h C) (hg : Gone (C.pc 0).here) : ∃ k, C.pc 0 = .at k ∧ Gone k := by
  have htd := User.Runs.tidy (sr := id) stress_plays stress_reads hx
  generalize hp : C.pc 0 = p at hg
  cases p with
  | «at» k => exact ⟨k, rfl, hg⟩
  | call k q =>
    have := (htd.busy 0 _ _ hp).2.1
    simp only [User.PC.here] at hg
    cases k <;> simp [script, scriptWith, Gone] at this hg

/-- Steps of the reader. -/
theorem SInv.reader (hN : Holds cfg N) (h0 : 0 < x.size) (hx : StressRuns cfg sc x h C) (hi : SAll x h C) (hc : SSince cfg sc x h C) {ch σ' p' e}
    (hs : (User.mach (program Nat cfg sc).mach (script x) .absent).step 1 C.s (C.pc 1) ch = some (σ', p', e))
    (hok : User.okBy (program Nat cfg sc).mach (script x) (Program.ok okCall) C.s (C.pc 1) ch) :
    SInv x (h ++ e.toList) σ'.1 σ'.2 (C.pc 0) p' (C.pc 2) := by
  have hs' := User.trans_of_step hs
  have htd := User.Runs.tidy (sr := id) stress_plays stress_reads hx
  have hT := stress_exec hx
  have hb := User.base_step stress_plays (fun t k p hp => (htd.busy t k p hp).1) hs hok
  have htid : ∀ ev, e = some ev → ev.tid = 1 := by
    rintro ev rfl
    exact User.Runs.event_tid stress_plays stress_reads hx hs
  obtain ⟨hord, hle⟩ := hi.order hN hT (fun k p hp => (htd.busy 0 k p hp).2.1)
  -- what the reader knows
  have hview : Stress.Past (C.pc 1).here → C.s.2.running = false ∧ σ'.1.vc.w = σ'.1.wlast ∧ σ'.1.acc = C.s.1.acc := by
    intro hpast
    obtain ⟨h1, h2⟩ := hi.knows hpast
    obtain ⟨k, h3, -⟩ := gone_at hx (hi.running.1 h1)
    have h5 : ofThread 0 e.toList = [] := by
      cases e with
      | none => rfl
      | some ev => exact ofThread_ne (by rw [htid ev rfl]; decide)
    have h6 := text_idle_producer hN hT (by simp only [User.baseOf, h3]; rfl) hb h5
    simp only [User.baseOf] at h6
    exact ⟨h1, by omega, h6.2.2.1⟩
  obtain ⟨s₂, g₂⟩ := σ'
  simp only at hs' hview ⊢
  obtain ⟨cs, hd⟩ := hi.didR
  have hw := hi.reads
  have her := hi.endedR
  have hha := hi.hands
  have hset := hi.set
  have hrec := hi.received
  have hcnt := hi.cnt
  have hemp := hi.empty
  generalize hp : C.pc 1 = p at hs' hw her hha hset hrec hcnt hemp hview hd
  have mk : ReadsAt p'.here → (∃ cs, Did 1 (h ++ e.toList) cs (inCallOf x p')) → Stress.hands p'.here <:+ delivered (h ++ e.toList) →
      (∃ e', e' + (Stress.hands p'.here).length = (delivered (h ++ e.toList)).length ∧
        g₂.working_set = List.range' (x.first + e' + 1) (made x (C.pc 0).here - e') ∧ e' ≤ made x (C.pc 0).here) →
      g₂.received + untaken p'.here = (delivered (h ++ e.toList)).length →
      g₂.cnt = Stress.counted x (C.pc 0).here - ((delivered (h ++ e.toList)).length : Int) + undec p'.here →
      g₂.generator = C.s.2.generator → g₂.running = C.s.2.running → (Stress.Past p'.here → C.s.2.running = false ∧ s₂.vc.w = s₂.wlast) →
      (p' = .at .leave ∨ p' = .at .ended → s₂.acc.length = s₂.rel) → g₂.ended 0 = C.s.2.ended 0 → (g₂.ended 1 = true → p' = .at .ended) →
      (C.s.2.ended 1 = true → g₂.ended 1 = true) → SInv x (h ++ e.toList) s₂ g₂ (C.pc 0) p' (C.pc 2) := by
    intro a1 a2 a3 a4 a5 a6 a7 a8 a9 a10 a11 a12 a13
    have c0 : callsOf 0 (h ++ e.toList) = callsOf 0 h := by
      cases e with
      | none => simp
      | some ev => exact callsOf_other (by rw [htid ev rfl]; decide)
    refine ⟨hi.writes, a1, ?_, ?_, a2, a7 ▸ hi.gen, ?_, a3, a4, a5, a6, a8 ▸ hi.running, ?_, a10, ?_, a12⟩
    · obtain ⟨k, c1, c2⟩ := hi.main
      refine ⟨k, c1, ?_⟩
      cases k <;> simp only [Main] at c2 ⊢
      · exact a11 ▸ c2
      all_goals exact ⟨a11 ▸ c2.1, a13 c2.2⟩
    · obtain ⟨cs, c2⟩ := hi.didW
      refine ⟨cs, ?_⟩
      cases e with
      | none => simpa using c2
      | some ev => exact c2.other (by rw [htid ev rfl]; decide)
    · simp only [accepted, c0]; exact hi.acc
    · rw [a8]; exact a9
    · rw [a11]; exact hi.endedW
  cases hs' with
  | @call k b ch s' q e hk hst =>
    obtain ⟨o, rfl, ho⟩ := stress_reads.call _ _ hk _ _ _ _ _ hst
    simp only [id] at ho
    subst ho
    have c1 : delivered (h ++ [.inv 1 (opAt x k)]) = delivered h := by simp only [delivered, callsOf_inv hd]
    simp only [Option.toList_some, c1] at mk ⊢
    refine mk hw ⟨cs, hd.inv _⟩ hha hset hrec hcnt (by trivial) (by trivial) (fun h1 => ⟨(hview h1).1, (hview h1).2.1⟩) nofun (by trivial) (fun h1 => ?_) id
    have := her h1
    cases this
    cases hk
  | @act k b g' l k' s' hk hac hq =>
    have hl : l = [] → s₂ = C.s.1 := by
      rintro rfl
      simp only [Example.quiet] at hq
      cases hq; rfl
    simp only [here_at] at hw hha hset hrec hcnt hview mk
    simp only [Option.toList_none, List.append_nil] at mk ⊢
    cases k <;> simp only [ReadsAt] at hw <;> simp only [script, scriptWith] at hac
    case pop => cases hk
    case take l vs =>
      cases hac
      exact mk trivial ⟨cs, hd⟩ hha hset (by simp only [untaken] at hrec ⊢; omega) hcnt (by trivial) (by trivial)
        (fun h1 => ⟨(hview h1).1, (hview h1).2.1⟩) nofun (by trivial) (fun h1 => by cases her h1) id
    case dec l vs =>
      cases hac
      exact mk trivial ⟨cs, hd⟩ hha hset hrec (by simp only [undec] at hcnt ⊢; omega) (by trivial) (by trivial)
        (fun h1 => ⟨(hview h1).1, (hview h1).2.1⟩) nofun (by trivial) (fun h1 => by cases her h1) id
    case erase l vs =>
      cases vs with
      | nil =>
        simp only at hac
        cases hac
        cases l with
        | true =>
          exact mk trivial ⟨cs, hd⟩ hha hset hrec hcnt (by trivial) (by trivial) (fun h1 => ⟨(hview h1).1, (hview h1).2.1⟩) nofun (by trivial)
            (fun h1 => by cases her h1) id
        | false =>
          exact mk trivial ⟨cs, hd⟩ hha hset hrec hcnt (by trivial) (by trivial) nofun nofun (by trivial) (fun h1 => by cases her h1) id
      | cons v vs =>
        obtain ⟨e, e1, e2, e3⟩ := hset
        simp only [Stress.hands, List.length_cons] at e1 hha
        obtain ⟨pre, e4⟩ := hha
        have e5 : pre.length = e := by
          have := congrArg List.length e4
          simp only [List.length_append, List.length_cons] at this
          omega
        have e6 : v = x.first + e + 1 := by
          have e7 : (delivered h)[e]? = some v := by rw [← e4, ← e5]; simp
          rw [hord, List.getElem?_range' (by omega)] at e7
          cases e7
          omega
        have e8 : C.s.2.working_set = v :: List.range' (x.first + (e + 1) + 1) (made x (C.pc 0).here - (e + 1)) := by
          rw [e2, show made x (C.pc 0).here - e = made x (C.pc 0).here - (e + 1) + 1 by omega, List.range'_succ, e6]
          congr 2
        simp only at hac
        rw [if_pos (by rw [e8]; simp)] at hac
        cases hac
        exact mk trivial ⟨cs, hd⟩ ⟨pre ++ [v], by simpa [Stress.hands] using e4⟩
          ⟨e + 1, by simp only [Stress.hands]; omega, by rw [e8]; simp, by omega⟩ hrec hcnt (by trivial) (by trivial)
          (fun h1 => ⟨(hview h1).1, (hview h1).2.1⟩) nofun (by trivial) (fun h1 => by cases her h1) id
    case test b' =>
      cases b with
      | false =>
        simp only [Bool.false_eq_true, if_false] at hac
        cases hac
        exact mk trivial ⟨cs, hd⟩ hha hset hrec hcnt (by trivial) (by trivial) nofun nofun (by trivial) (fun h1 => by cases her h1) id
      | true =>
        simp only [if_true] at hac
        split at hac
        · cases hac
        · rename_i hrun
          cases hac
          refine mk trivial ⟨cs, hd⟩ hha hset hrec hcnt (by trivial) (by trivial) (fun _ => ⟨by simpa using hrun, ?_⟩) nofun (by trivial) (fun h1 => by cases her h1) id
          simp only [Example.quiet, Program.mach, program, Option.map_some, Option.some.injEq] at hq
          subst hq
          obtain ⟨_, D, -, -, h7, h8⟩ := spsc_text_refines hN hT
          obtain ⟨_, _, _, h9, -⟩ := hN.inv h7
          rw [h8.s] at h9
          have h10 := h9.vpw
          have h11 := h9.vcw
          simp only [User.baseOf, View.join] at h10 h11 ⊢
          omega
    case leave =>
      cases hac
      exact mk trivial ⟨cs, hd⟩ hha hset hrec hcnt (by trivial) (by trivial) (fun h1 => ⟨(hview h1).1, (hview h1).2.1⟩)
        (fun _ => by rw [hl rfl]; exact hemp (.inl rfl)) rfl (fun _ => rfl) (fun _ => by simp)
    all_goals cases hac
  | @inside k q ch s' q' e hst hne =>
    obtain ⟨hb1, hb2, -⟩ := htd.busy 1 _ _ hp
    rcases (stress_plays (x := x)).step _ _ _ _ _ _ _ hb1 hst with ⟨rfl, _⟩ | ⟨r, h3, _⟩
    · simp only [Option.toList_none, List.append_nil] at mk ⊢
      refine mk hw ⟨cs, hd⟩ hha hset hrec hcnt (by trivial) (by trivial) (fun h1 => ⟨(hview h1).1, (hview h1).2.1⟩) nofun (by trivial) (fun h1 => ?_) id
      have := her h1
      cases this
    · exact absurd h3 (hne _ _)
  | @finish k q ch s' q' u r hst =>
    obtain ⟨hb1, hb2, -⟩ := htd.busy 1 _ _ hp
    have hu : u = 1 := by
      rcases (stress_plays (x := x)).step _ _ _ _ _ _ _ hb1 hst with ⟨h3, _⟩ | ⟨r, h3, _⟩
      · cases h3
      · cases h3; rfl
    subst hu
    obtain ⟨h₁, C₁, h₂, o, b1, b2, b3, b4, b5, b6, b7⟩ := User.Runs.whole stress_plays stress_reads hx hc hp hs hok
    have hpost := spsc_text_consumer_call hN (stress_exec b1) (by simp only [User.baseOf, b3]; rfl) b5 b6
    simp only [id] at b7
    subst b7
    cases k <;> simp only [script, scriptWith, ne_eq, not_true_eq_false] at hb2
    case push => exact hw.elim
    rename_i l
    simp only [here_at, here_call] at hw hha hset hrec hcnt hview mk
    have hdel := delivered_snoc hd (r := r)
    have hd' := hd.res r
    simp only [opAt] at hdel hpost
    simp only [Option.toList_some] at mk ⊢
    have hold : Stress.Past (.pop l) → C.s.2.running = false ∧ s₂.vc.w = s₂.wlast := fun h1 => ⟨(hview h1).1, (hview h1).2.1⟩
    rcases popped_post h0 hpost with ⟨e1, e2, e3, e3'⟩ | ⟨v, vs, e1, e2⟩ | ⟨e1, e2⟩
    · rw [e2, List.append_nil] at hdel
      rw [hdel] at mk
      cases l with
      | false =>
        have e5 : (script x).next (.pop false) r = .test false := by simp [script, scriptWith, e1]
        rw [e5] at mk ⊢
        exact mk trivial ⟨_, hd'⟩ hha hset hrec hcnt (by trivial) (by trivial) nofun nofun (by trivial) (fun h1 => by cases her h1) id
      | true =>
        have e5 : (script x).next (.pop true) r = .leave := by simp [script, scriptWith, e1]
        rw [e5] at mk b4 b5 ⊢
        refine mk trivial ⟨_, hd'⟩ hha hset hrec hcnt (by trivial) (by trivial) (fun _ => hold rfl) (fun _ => ?_) (by trivial) (fun h1 => by cases her h1) id
        obtain ⟨f1, f2⟩ := b2.knows (by rw [b3]; exact rfl)
        have f3 := gone_at b1 (b2.running.1 f1)
        obtain ⟨f4, -⟩ := User.Runs.resting stress_plays stress_reads b1 (t := 0) (Q := Gone)
          (by
            intro k hk
            cases k <;> simp only [Gone] at hk
            · exact ⟨rfl, fun g b y hy => by simp only [script, scriptWith] at hy; cases hy; trivial⟩
            · exact ⟨rfl, fun g b y hy => by simp only [script, scriptWith] at hy; cases hy⟩) b4 f3
        obtain ⟨k₁, f5, -⟩ := f3
        have f6 := text_idle_producer hN (stress_exec b1) (by simp only [User.baseOf, f5]; rfl) b5 f4
        obtain ⟨j, f7, f8, f9⟩ := e3
        simp only [User.baseOf, e5] at f6 f7 f8 f9 e3'
        have f10 : j = s₂.wlast := by omega
        rw [f10, f6.2.2.2.2.2] at f9
        omega
    · rw [e2] at hdel
      rw [hdel] at mk
      have e5 : (script x).next (.pop l) r = .take l (v :: vs) := by simp [script, scriptWith, e1]
      rw [e5] at mk ⊢
      refine mk trivial ⟨_, hd'⟩ ⟨delivered h, rfl⟩ ?_ ?_ ?_ (by trivial) (by trivial) hold nofun (by trivial) (fun h1 => by cases her h1) id
      · obtain ⟨e, g1, g2, g3⟩ := hset
        exact ⟨e, by simp only [Stress.hands, List.length_append, List.length_nil] at g1 ⊢; omega, g2, g3⟩
      · simp only [untaken, List.length_append] at hrec ⊢; omega
      · simp only [undec, List.length_append] at hcnt ⊢; omega
    · rw [e2, List.append_nil] at hdel
      rw [hdel] at mk
      have e5 : (script x).next (.pop l) r = .rthrew := by simp [script, scriptWith, e1]
      rw [e5] at mk ⊢
      exact mk trivial ⟨_, hd'⟩ hha hset hrec hcnt (by trivial) (by trivial) nofun nofun (by trivial) (fun h1 => by cases her h1) id

/-- When writer and reader have ended. -/
theorem SInv.over (hN : Holds cfg N) (hx : StressRuns cfg sc x h C) (hi : SAll x h C) (h0 : C.s.2.ended 0 = true) (h1 : C.s.2.ended 1 = true) :
    C.s.2.received = x.total ∧ C.s.2.cnt = 0 ∧ C.s.2.working_set = [] ∧ delivered h = List.range' (x.first + 1) x.total ∧ C.s.1.acc.drop C.s.1.rel = [] := by
  have e0 := hi.endedW h0
  have e1 := hi.endedR h1
  have hT := stress_exec hx
  obtain ⟨-, -, -, h2⟩ := spsc_text_fifo_quiescent hN hT (by simp only [User.baseOf, e0]; rfl) (by simp only [User.baseOf, e1]; rfl)
  have h3 : C.s.1.acc.drop C.s.1.rel = [] := by rw [← hi.empty (.inr e1)]; simp
  simp only [User.baseOf] at h2
  rw [h3, List.append_nil] at h2
  have h4 := hi.acc
  have h5 := hi.set
  have h6 := hi.received
  have h7 := hi.cnt
  rw [e0] at h4 h5 h7
  rw [e1] at h5 h6 h7
  simp only [here_at, Stress.acc, made, Stress.hands, untaken, undec, Stress.counted, List.length_nil] at h4 h5 h6 h7
  rw [← h2, h4, List.length_range'] at h5 h6 h7
  obtain ⟨e, h8, h9, -⟩ := h5
  refine ⟨by omega, by omega, ?_, by rw [← h2, h4], h3⟩
  rw [h9, ← h8]
  simp

/-- Steps of `run`. -/
theorem SInv.runs (hN : Holds cfg N) (hx : StressRuns cfg sc x h C) (hi : SAll x h C) {ch σ' p' e}
    (hs : (User.mach (program Nat cfg sc).mach (script x) .absent).step 2 C.s (C.pc 2) ch = some (σ', p', e)) :
    SInv x (h ++ e.toList) σ'.1 σ'.2 (C.pc 0) (C.pc 1) p' := by
  have hs' := User.trans_of_step hs
  obtain ⟨s₂, g₂⟩ := σ'
  simp only at hs' ⊢
  obtain ⟨k, hp, hm⟩ := hi.main
  rw [hp] at hs'
  have mk : ∀ k', Main C.s.2 k' → SInv x h C.s.1 C.s.2 (C.pc 0) (C.pc 1) (.at k') := fun k' hk' => { hi with main := ⟨k', rfl, hk'⟩ }
  have hov := hi.over hN hx
  cases hs' with
  | call hk _ => cases k <;> simp only [Main] at hm <;> cases hk
  | act hk hac hq =>
    rw [Option.toList_none, List.append_nil]
    cases k <;> simp only [Main] at hm <;> simp only [script, scriptWith] at hac
    case joinWriter =>
      split at hac
      · rename_i h1; cases hac; cases hq; exact mk _ h1
      · cases hac
    case joinReader =>
      split at hac
      · rename_i h1; cases hac; cases hq; exact mk _ ⟨hm, h1⟩
      · cases hac
    case checkReceived =>
      rw [if_pos (hov hm.1 hm.2).1] at hac
      cases hac; cases hq; exact mk _ hm
    case checkCnt =>
      rw [if_pos (hov hm.1 hm.2).2.1] at hac
      cases hac; cases hq; exact mk _ hm
    case checkSet =>
      rw [if_pos (by rw [(hov hm.1 hm.2).2.2.1]; rfl)] at hac
      cases hac; cases hq; exact mk _ hm
    case passed => cases hac

theorem stress_all (hN : Holds cfg N) (h0 : 0 < x.size) (hx : StressRuns cfg sc x h C) : SAll x h C ∧ ∀ t, C.pc (t + 3) = .at .absent := by
  refine User.Runs.induct (Q := fun h C => SAll x h C ∧ ∀ t, C.pc (t + 3) = .at .absent) (so := id) (op := opAt x) stress_plays stress_reads ⟨?_, fun _ => rfl⟩ ?_ hx
  · refine ⟨trivial, trivial, ⟨_, rfl, trivial⟩, ⟨[], .nil _⟩, ⟨[], .nil _⟩, rfl, rfl, ⟨[], rfl⟩, ⟨0, rfl, rfl, Nat.le_refl _⟩, rfl, rfl, ?_, nofun, nofun, nofun, nofun⟩
    exact ⟨nofun, nofun⟩
  · intro h C t ch σ' p' e hx hi hc hs hok
    have hc' : SSince cfg sc x h C := by
      intro t k p hp
      obtain ⟨h₁, C₁, h₂, o, a1, a2, a3⟩ := hc t k p hp
      exact ⟨h₁, C₁, h₂, o, a1, a2.1, a3⟩
    match t with
    | 0 => exact ⟨hi.1.writer hN h0 hx hc' hs hok, fun t => hi.2 t⟩
    | 1 => exact ⟨hi.1.reader hN h0 hx hc' hs hok, fun t => hi.2 t⟩
    | 2 => exact ⟨hi.1.runs hN hx hs, fun t => hi.2 t⟩
    | t + 3 =>
      have hs' := User.trans_of_step hs
      rw [hi.2 t] at hs'
      obtain ⟨s₂, g₂⟩ := σ'
      simp only at hs'
      cases hs' with
      | call hk _ => cases hk
      | act _ hac _ => simp only [script, scriptWith] at hac; cases hac

/-- **C66 (stress tests: no undefined behaviour).** -/
theorem spsc_stress_no_undefined_behaviour (hN : Holds cfg N) (hx : StressRuns cfg sc x h C) (t : Nat) (a : Stress.At) : C.pc t ≠ .call a .err := by
  intro he
  have := spsc_text_no_undefined_behaviour hN (stress_exec hx) t
  simp only [User.baseOf, User.pcOf, he] at this
  exact this rfl

/-- **C66 (stress tests: the order of the elements).** At any time, the elements popped are the first of the numbers generated, in order. -/
theorem spsc_stress_order (hN : Holds cfg N) (h0 : 0 < x.size) (hx : StressRuns cfg sc x h C) :
    delivered h = List.range' (x.first + 1) (delivered h).length := by
  have htd := User.Runs.tidy (sr := id) stress_plays stress_reads hx
  exact ((stress_all hN h0 hx).1.order hN (stress_exec hx) (fun k p hp => (htd.busy 0 k p hp).2.1)).1

/-- **C66 (stress tests: no assertion and no check fails).** The assertions at spsc_queue_stress_test.cpp:74, :178, the checks at :109, :110, :112 and :213, :214, :216. -/
theorem spsc_stress_never_fails (hN : Holds cfg N) (h0 : 0 < x.size) (hx : StressRuns cfg sc x h C) (t : Nat) : C.pc t ≠ .at .failed := by
  obtain ⟨hi, h3⟩ := stress_all hN h0 hx
  intro hf
  match t with
  | 0 => have := hi.writes; rw [hf] at this; exact this
  | 1 => have := hi.reads; rw [hf] at this; exact this
  | 2 =>
    obtain ⟨k, h1, h2⟩ := hi.main
    rw [hf] at h1
    cases h1
    exact h2
  | t + 3 => rw [h3 t] at hf; cases hf

/-- `reader.join()` has returned (:107, :211). -/
def StressJoined : Stress.At → Prop
  | .checkReceived | .checkCnt | .checkSet | .passed => True
  | _ => False

/-- **C66 (stress tests).** When both threads have been joined: the reader has popped all numbers the writer generated, in order; the counters are right; `working_set` and
the queue are empty. -/
theorem spsc_stress_passed (hN : Holds cfg N) (h0 : 0 < x.size) (hx : StressRuns cfg sc x h C) {k : Stress.At} (hp : C.pc 2 = .at k) (hk : StressJoined k) :
    C.s.2.received = x.total ∧ C.s.2.cnt = 0 ∧ C.s.2.working_set = [] ∧ delivered h = List.range' (x.first + 1) x.total ∧
      C.s.1.acc.drop C.s.1.rel = [] := by
  obtain ⟨hi, -⟩ := stress_all hN h0 hx
  obtain ⟨k', h1, h2⟩ := hi.main
  rw [hp] at h1
  cases h1
  cases k <;> simp only [StressJoined] at hk <;> exact hi.over hN hx h2.1 h2.2

end Verif.Spsc.Code
