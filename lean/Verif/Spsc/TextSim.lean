import Verif.Spsc.Text
import Verif.Spsc.Props

/-!
# `spsc_queue`: the program text refines the machine (C55)

No further code of /repo is modelled here.
-/

namespace Verif.Spsc.Code
open Lin Text

variable {α : Type} {cfg : Cfg} {sc : Bool}

abbrev LRest (α : Type) := Rest (St α) (Loc α) (Choice α)

/-- What a call does if an exception leaves the function. -/
def onThrow : LRest α := [.stm (.set fun l => { l with result := .threw })]

/-- The end of a call. -/
def base : LRest α := [.fn, .handler (.set fun l => { l with result := .threw })]

abbrev setW : Loc α → SizeT → Loc α := fun l x => { l with write_index := x }
abbrev setR : Loc α → SizeT → Loc α := fun l x => { l with read_index := x }

/-- What follows a call of `std::uninitialized_copy`. -/
inductive CopyCtx (cfg : Cfg) (l : Loc α) : Bool → Bool → List α → SizeT → LRest α → Prop where
  | two1 {rest} : rest = (l.range.take l.last).drop l.midpoint → rest ≠ [] →
      CopyCtx cfg l true false rest (l.new_write_index - cfg.size) (.stm ((copyTwo cfg).drop 3) :: .stm publish :: base)
  | two2 : CopyCtx cfg l false true [] (l.new_write_index - cfg.size) (.stm ((copyTwo cfg).drop 4) :: .stm publish :: base)
  | one : CopyCtx cfg l true false [] (if l.new_write_index = cfg.size then 0 else l.new_write_index)
      (.stm ((copyOne cfg).drop 1) :: .stm publish :: base)

/-- What follows a section of a bulk pop. -/
inductive TakeCtx (cfg : Cfg) (copy : Bool) (l : Loc α) : Nat → SizeT → LRest α → Prop where
  | two1 : l.count1.toNat ≠ 0 →
      TakeCtx cfg copy l l.count1.toNat (l.new_read_index - cfg.size) (.stm ((takeTwo cfg copy).drop 3) :: .stm release :: base)
  | two2 : TakeCtx cfg copy l 0 (l.new_read_index - cfg.size) (.stm ((takeTwo cfg copy).drop 4) :: .stm release :: base)
  | one : TakeCtx cfg copy l 0 (if l.new_read_index = cfg.size then 0 else l.new_read_index)
      (.stm ((takeOne cfg copy).drop 1) :: .stm release :: base)

/-- Within `std::uninitialized_copy`. -/
def copyRest (cfg : Cfg) (cov : Bool) (ctx : LRest α) : LRest α := .loop (copyLoop cfg cov) :: .handler (undo cfg) :: .fn :: ctx

/-- Within a section of a bulk pop. -/
def takeRest (cfg : Cfg) (copy : Bool) (ctx : LRest α) : LRest α := .loop (sectionLoop cfg copy) :: .fn :: ctx

/-- The local variables of the range `push` after line 138. -/
def Ranged (l : Loc α) : Prop := l.last = l.input_count.toNat ∧ l.last ≤ l.range.length

/-- What the result of a call has to do with what was written to the output. -/
def Output (l : Loc α) : Prop :=
  match l.result with
  | .popped x => l.out = x.toList
  | .poppedMany vs => l.out = vs
  | _ => True

/-- Places in the text and program counters of the machine. -/
inductive At (cfg : Cfg) (sc : Bool) : Loc α → LRest α → PC α → Prop where
  | push1 {l v} : l.t = some v → At cfg sc l (.stm (.acc (loadWrite sc false setW)) :: .stm ((push cfg sc).drop 1) :: base) (.push1 v)
  | push2 {l v w next} : l.t = some v → l.write_index = w → l.next = next →
      At cfg sc l (.stm (.acc (loadRead sc true setR)) :: .stm ((push cfg sc).drop 5) :: base) (.push2 v w next)
  | push3 {l v w next} : l.t = some v → l.write_index = w → l.next = next →
      At cfg sc l (.stm (.acc (construct cfg (fun l => l.write_index.toNat) (fun l => l.t) true)) :: .stm ((push cfg sc).drop 7) :: base)
        (.push3 v w next)
  | push4 {l v next} : l.t = some v → l.next = next →
      At cfg sc l (.stm (.acc (storeWrite (fun l => l.next) fun l => l.t.toList)) :: .stm ((push cfg sc).drop 8) :: base) (.push4 v next)
  | rng1 {l vs} : l.range = vs → vs.length < 2 ^ 64 →
      At cfg sc l (.stm (.acc (loadWrite sc false setW)) :: .stm ((pushRange cfg sc).drop 1) :: base) (.rng1 vs)
  | rng2 {l vs w} : l.range = vs → vs.length < 2 ^ 64 → l.write_index = w →
      At cfg sc l (.stm (.acc (loadRead sc true setR)) :: .stm ((pushRange cfg sc).drop 2) :: base) (.rng2 vs w)
  | rngCopy {l start dst xs rest second total newW cov ctx} : CopyCtx cfg l cov second rest newW ctx → Ranged l → l.src_last ≤ l.range.length →
      l.d_first = start → l.current = dst → xs = (l.range.take l.src_last).drop l.src → xs ≠ [] → total = l.range.take l.input_count.toNat →
      At cfg sc l (.stm (.acc (construct cfg (fun l => l.current) (fun l => l.range[l.src]?) cov)) :: .stm ((copyLoop cfg cov).drop 2) ::
        copyRest cfg cov ctx) (.rngCopy start dst xs rest second total newW)
  | rngUnwind {l i stop ctx} : l.d_first = i → l.current = stop → toHandler ctx = onThrow →
      At cfg sc l (.stm (.acc (destroy cfg fun l => l.d_first)) :: .stm ((undoLoop cfg).drop 2) :: .loop (undoLoop cfg) ::
        .stm ((undo cfg).drop 1) :: .fn :: ctx) (.rngUnwind i stop)
  | rngStore {l total newW} : Ranged l → total = l.range.take l.input_count.toNat → l.new_write_index = newW →
      At cfg sc l (.stm (.acc (storeWrite (fun l => l.new_write_index) fun l => l.range.take l.input_count.toNat)) :: .stm (publish.drop 1) :: base)
        (.rngStore total newW)
  | wav1 {l} : At cfg sc l (.stm (.acc (loadWrite sc false setW)) :: .stm ((writeAvailable cfg sc).drop 1) :: .stm returnWrite :: base) .wav1
  | wav2 {l w} : l.write_index = w →
      At cfg sc l (.stm (.acc (loadRead sc true setR)) :: .stm ((writeAvailable cfg sc).drop 2) :: .stm returnWrite :: base) (.wav2 w)
  | emp1 {l} : At cfg sc l (.stm (.acc (loadEither sc)) :: .stm ((isEmpty sc).drop 1) :: base) .emp1
  | emp2 {l w} : l.write_index = w → At cfg sc l (.stm (.acc (loadRead sc false setR)) :: .stm ((isEmpty sc).drop 2) :: base) (.emp2 w)
  | emp3 {l r} : l.read_index = r → At cfg sc l (.stm (.acc (loadWrite sc false setW)) :: .stm ((isEmpty sc).drop 2) :: base) (.emp3 r)
  | one1 {l} : l.out = [] → At cfg sc l (.stm (.acc (loadWrite sc true setW)) :: .stm ((consumeOne cfg sc).drop 1) :: base) .one1
  | one2 {l w} : l.out = [] → l.write_index = w →
      At cfg sc l (.stm (.acc (loadRead sc false setR)) :: .stm ((consumeOne cfg sc).drop 2) :: base) (.one2 w)
  | one3 {l r} : l.out = [] → l.read_index = r →
      At cfg sc l (.stm (.acc (take cfg fun l => l.read_index.toNat)) :: .stm ((consumeOne cfg sc).drop 4) :: base) (.one3 r)
  | one4 {l v r} : l.out = [v] → l.read_index = r →
      At cfg sc l (.stm (.acc (destroy cfg fun l => l.read_index.toNat)) :: .stm ((consumeOne cfg sc).drop 5) :: base) (.one4 v r)
  | one5 {l v r} : l.out = [v] → nextIndex r cfg.size = some l.next →
      At cfg sc l (.stm (.acc (storeRead (fun l => l.next) fun _ => 1)) :: .stm ((consumeOne cfg sc).drop 9) :: base) (.one5 v r)
  | bulk1 {l copy lim} : l.out = [] → (∀ n, lim = some n → n < 2 ^ 64 ∧ l.output_count = BitVec.ofNat 64 n) →
      At cfg sc l (.stm (.acc (loadWrite sc true setW)) :: .stm ((takeMany cfg sc copy lim.isSome).drop 1) :: base) (.bulk1 copy lim)
  | bulk2 {l copy lim w} : l.out = [] → (∀ n, lim = some n → n < 2 ^ 64 ∧ l.output_count = BitVec.ofNat 64 n) → l.write_index = w →
      At cfg sc l (.stm (.acc (loadRead sc false setR)) :: .stm ((takeMany cfg sc copy lim.isSome).drop 2) :: base) (.bulk2 copy lim w)
  | bulkCopy {l copy i rem rest outs newR ctx} : TakeCtx cfg copy l rest newR ctx → (copy && cfg.trivial) = true → l.first = i →
      i + rem = l.last_ptr → rem ≠ 0 → l.out = outs → outs.length + rem + rest = l.output_count.toNat →
      At cfg sc l (.stm (.acc (take cfg fun l => l.first)) :: .stm ((stdCopyLoop cfg).drop 2) :: takeRest cfg copy ctx)
        (.bulkRead copy i rem rest outs newR)
  | bulkRead {l copy i rem rest outs newR ctx} : TakeCtx cfg copy l rest newR ctx → (copy && cfg.trivial) = false → l.first = i →
      i + rem = l.last_ptr → rem ≠ 0 → l.out = outs → outs.length + rem + rest = l.output_count.toNat →
      At cfg sc l (.stm (.acc (take cfg fun l => l.first)) :: .stm ((takeLoop cfg).drop 2) :: takeRest cfg copy ctx)
        (.bulkRead copy i rem rest outs newR)
  | bulkDestroy {l copy i rem rest outs newR ctx} : TakeCtx cfg copy l rest newR ctx → (copy && cfg.trivial) = false → l.first = i →
      i + rem = l.last_ptr → rem ≠ 0 → l.out = outs → outs.length + (rem - 1) + rest = l.output_count.toNat →
      At cfg sc l (.stm (.acc (destroy cfg fun l => l.first)) :: .stm ((takeLoop cfg).drop 3) :: takeRest cfg copy ctx)
        (.bulkDestroy copy i rem rest outs newR)
  | bulkStore {l outs newR} : l.out = outs → outs.length = l.output_count.toNat → l.new_read_index = newR →
      At cfg sc l (.stm (.acc (storeRead (fun l => l.new_read_index) fun l => l.output_count.toNat)) :: .stm (release.drop 1) :: base)
        (.bulkStore outs newR)
  | rav1 {l} : At cfg sc l (.stm (.acc (loadWrite sc true setW)) :: .stm ((readAvailable cfg sc).drop 1) :: .stm returnRead :: base) .rav1
  | rav2 {l w} : l.write_index = w →
      At cfg sc l (.stm (.acc (loadRead sc false setR)) :: .stm ((readAvailable cfg sc).drop 2) :: .stm returnRead :: base) (.rav2 w)
  | frt1 {l} : At cfg sc l (.stm (.acc (loadWrite sc true setW)) :: .stm ((readAvailable cfg sc).drop 1) ::
      .stm ((front cfg sc true).drop 1) :: base) .frt1
  | frt2 {l w} : l.write_index = w →
      At cfg sc l (.stm (.acc (loadRead sc false setR)) :: .stm ((readAvailable cfg sc).drop 2) :: .stm ((front cfg sc true).drop 1) :: base) (.frt2 w)
  | frt3 {l} : At cfg sc l (.stm (.acc (loadRead sc false setR)) :: .stm ((frontRef cfg sc).drop 1) :: base) .frt3
  | frt4 {l r} : l.read_index = r → At cfg sc l (.stm (.acc (readFront cfg)) :: base) (.frt4 r)
  | fin {l r} : l.result = r → (ho : Output l := by simp [Output, *]) → At cfg sc l [] (.ret r)

theorem At.head {l : Loc α} {k p} (h : At cfg sc l k p) : ctl l k = none := by
  cases h <;> rfl

/-- What the machine knows of a thread (`Inv`). -/
def TextInv (cfg : Cfg) (t : Nat) (s : St α) (p : PC α) : Prop :=
  ∃ pre gone handed, SI cfg s pre gone handed ∧ match t with
    | 0 => PLocal cfg s pre p
    | 1 => CLocal cfg s gone handed p
    | _ => p = .idle

/-- The steps of the machine that are covered. -/
def okText (sc : Bool) (s : St α) (p : PC α) (ch : Choice α) : Prop :=
  okSafe s p ch ∧ (sc = true → okSC s p ch) ∧ ∀ o, ch = .call o → fits o

/-- Synchronisation by means outside the queue and, if `thr`, exceptions. -/
def isOut (thr : Bool) : Choice α → Bool
  | .sync => true
  | .throw => thr
  | _ => false

/-- Synchronisation by means outside the queue. -/
abbrev isSync : Choice α → Bool := isOut false

theorem TextInv.prod {t} {s : St α} {p} (h : TextInv cfg t s p) (hc : ∀ s g k, ¬ CLocal cfg s g k p := by simp [CLocal]) (hi : p ≠ .idle := by simp) :
    t = 0 ∧ ∃ pre gone handed, SI cfg s pre gone handed ∧ PLocal cfg s pre p := by
  obtain ⟨pre, g, k, h1, h2⟩ := h
  match t, h2 with
  | 0, h2 => exact ⟨rfl, _, _, _, h1, h2⟩
  | 1, h2 => exact (hc _ _ _ h2).elim
  | t + 2, h2 => exact (hi h2).elim

theorem TextInv.cons {t} {s : St α} {p} (h : TextInv cfg t s p) (hc : ∀ s g, ¬ PLocal cfg s g p := by simp [PLocal]) (hi : p ≠ .idle := by simp) :
    t = 1 ∧ ∃ pre gone handed, SI cfg s pre gone handed ∧ CLocal cfg s gone handed p := by
  obtain ⟨pre, g, k, h1, h2⟩ := h
  match t, h2 with
  | 0, h2 => exact (hc _ _ h2).elim
  | 1, h2 => exact ⟨rfl, _, _, _, h1, h2⟩
  | t + 2, h2 => exact (hi h2).elim

/-! ### Functions without access -/

section
variable {PC : Type} {A : Loc α → LRest α → PC → Prop} {l : Loc α} {k : LRest α} {p : PC} {n : Nat}

/-- `next_index` of a valid index. -/
theorem next_leads {res} (h : l.arg.toNat < cfg.size.toNat) (hr : nextIndex l.arg cfg.size = some res)
    (hl : Leads n A { l with ret := res } k p) : Leads (n + 12) A l (.stm (nextIndexFn cfg) :: k) p := by
  obtain ⟨res', h1, h2, h3, h4⟩ := nextIndex_exact h
  rw [hr] at h1
  cases h1
  cases h2 with
  | done hd =>
    refine Leads.reach (a := 8) ?_ hl (by omega)
    exact .step rfl (.step rfl (.step rfl (.step rfl (.step rfl (.ff (by simpa using hd) (.step rfl (.step rfl .refl)))))))
  | again ha hb =>
    cases hb with
    | done hd =>
      refine Leads.reach (a := 11) ?_ hl (by omega)
      exact .step rfl (.step rfl (.step rfl (.step rfl (.step rfl (.tt (by simpa using ha) (.step rfl (.step rfl
        (.ff (by simpa using hd) (.step rfl (.step rfl .refl))))))))))
    | again hc =>
      exfalso
      have ha : cfg.size.toNat ≤ (l.arg + 1).toNat := ha
      have hc : cfg.size.toNat ≤ (l.arg + 1 - cfg.size).toNat := hc
      simp [BitVec.toNat_sub, BitVec.toNat_add] at ha hc
      have := cfg.size.isLt
      omega

theorem read_leads (hl : Leads n A { l with ret := readAvail l.write_index l.read_index cfg.size } k p) :
    Leads (n + 8) A l (.stm (readAvailFn cfg) :: k) p := by
  by_cases h : l.write_index ≥ l.read_index
  · rw [readAvail, if_pos h] at hl
    refine Leads.reach (a := 6) ?_ hl (by omega)
    exact .step rfl (.step rfl (.tt (by simpa using h) (.step rfl (.step rfl (.step rfl .refl)))))
  · rw [readAvail, if_neg h] at hl
    refine Leads.reach (a := 7) ?_ hl (by omega)
    exact .step rfl (.step rfl (.ff (by simpa using h) (.step rfl (.step rfl (.step rfl (.step rfl .refl))))))

theorem write_leads (hl : Leads n A { l with ret := writeAvail l.write_index l.read_index cfg.size } k p) :
    Leads (n + 8) A l (.stm (writeAvailFn cfg) :: k) p := by
  by_cases h : l.write_index ≥ l.read_index
  · rw [writeAvail, if_pos h] at hl
    refine Leads.reach (a := 7) ?_ hl (by omega)
    exact .step rfl (.step rfl (.step rfl (.step rfl (.tt (by simpa using h) (.step rfl (.step rfl .refl))))))
  · rw [writeAvail, if_neg h] at hl
    refine Leads.reach (a := 7) ?_ hl (by omega)
    exact .step rfl (.step rfl (.step rfl (.step rfl (.ff (by simpa using h) (.step rfl (.step rfl .refl))))))
end

theorem minSize_eq {n : Nat} {a : SizeT} (h : n < 2 ^ 64) : minSize (BitVec.ofNat 64 n) a = BitVec.ofNat 64 (min n a.toNat) := by
  apply BitVec.eq_of_toNat_eq
  have := a.isLt
  unfold minSize
  split
  · rename_i h1
    have h1 : a.toNat < (BitVec.ofNat 64 n).toNat := h1
    simp at h1 ⊢
    omega
  · rename_i h1
    have h1 : ¬ a.toNat < (BitVec.ofNat 64 n).toNat := h1
    simp at h1 ⊢
    omega

/-! ### Loops -/

theorem copy_handler {l : Loc α} {cov second rest newW ctx} (h : CopyCtx cfg l cov second rest newW ctx) : toHandler ctx = onThrow := by
  cases h <;> rfl

theorem take_handler {l : Loc α} {copy rest newR ctx} (h : TakeCtx cfg copy l rest newR ctx) : toHandler ctx = onThrow := by
  cases h <;> rfl

theorem CopyCtx.congr {l l' : Loc α} {cov second rest newW ctx} (h : CopyCtx cfg l cov second rest newW ctx) (h1 : l'.range = l.range)
    (h2 : l'.last = l.last) (h3 : l'.midpoint = l.midpoint) (h4 : l'.new_write_index = l.new_write_index) :
    CopyCtx cfg l' cov second rest newW ctx := by
  cases h with
  | two1 h5 h6 => rw [← h4]; exact .two1 (by rw [h1, h2, h3]; exact h5) h6
  | two2 => rw [← h4]; exact .two2
  | one => rw [← h4]; exact .one

theorem TakeCtx.congr {l l' : Loc α} {copy rest newR ctx} (h : TakeCtx cfg copy l rest newR ctx) (h1 : l'.count1 = l.count1)
    (h2 : l'.new_read_index = l.new_read_index) : TakeCtx cfg copy l' rest newR ctx := by
  cases h with
  | two1 h5 => rw [← h1, ← h2]; exact .two1 (by rw [h1]; exact h5)
  | two2 => rw [← h2]; exact .two2
  | one => rw [← h2]; exact .one

/-- `std::uninitialized_copy` returned. -/
theorem copy_end {l : Loc α} {cov second rest newW ctx total} (h : CopyCtx cfg l cov second rest newW ctx) (hr : Ranged l)
    (ht : total = l.range.take l.input_count.toNat) :
    Leads 15 (At cfg sc) l ctx (if rest = [] then .rngStore total newW else .rngCopy 0 0 rest [] true total newW) := by
  cases h with
  | two1 h1 h2 =>
    rw [if_neg h2]
    have h3 : l.midpoint ≠ l.last := by
      intro h; rw [h1, h, List.drop_eq_nil_of_le (by simp [List.length_take]; omega)] at h2; exact h2 rfl
    leads
    exact .rngCopy .two2 hr hr.2 rfl rfl h1 h2 ht
  | two2 =>
    leads
    exact .rngStore hr ht rfl
  | one =>
    rw [if_pos rfl]
    by_cases h : l.new_write_index = cfg.size
    · refine Leads.tt (by simp [h]) ?_
      leads
      exact .rngStore hr ht (by simp [h])
    · refine Leads.ff (by simp [h]) ?_
      leads
      exact .rngStore hr ht (by simp [h])

/-- An iteration of `std::uninitialized_copy`. -/
theorem copy_next {l : Loc α} {start dst xs cov second rest newW ctx total} (h : CopyCtx cfg l cov second rest newW ctx) (hr : Ranged l)
    (hl : l.src_last ≤ l.range.length) (hle : l.src ≤ l.src_last) (h1 : l.d_first = start) (h2 : l.current = dst)
    (hxs : xs = (l.range.take l.src_last).drop l.src) (ht : total = l.range.take l.input_count.toNat) :
    Leads 20 (At cfg sc) l (.stm (copyLoop cfg cov) :: copyRest cfg cov ctx) (rngNext start dst xs rest second total newW) := by
  unfold rngNext
  have hlen : xs.length = l.src_last - l.src := by rw [hxs]; simp [Nat.min_eq_left hl]
  by_cases hx : xs = []
  · rw [if_pos hx]
    have hx' : l.src = l.src_last := by rw [hx] at hlen; simp at hlen; omega
    refine Leads.reach (a := 5) (.step rfl (.tt (by simp [hx']) (.step rfl (.step rfl (.step rfl .refl))))) (copy_end h hr ht)
  · rw [if_neg hx]
    have hx' : ¬ l.src = l.src_last := by
      intro h; rw [h] at hlen; exact hx (List.length_eq_zero_iff.1 (by omega))
    refine Leads.step rfl (Leads.ff (by simp [hx']) ?_)
    leads
    exact .rngCopy h hr hl h1 h2 hxs hx ht

/-- A section of a bulk pop is done. -/
theorem take_end {l : Loc α} {copy rest newR ctx outs} (h : TakeCtx cfg copy l rest newR ctx) (ho : l.out = outs)
    (hc : outs.length + rest = l.output_count.toNat) :
    Leads 15 (At cfg sc) l ctx (if rest = 0 then .bulkStore outs newR else .bulkRead copy 0 rest 0 outs newR) := by
  cases h with
  | two1 h1 =>
    rw [if_neg h1]
    refine Leads.reach (a := 5) (.step rfl (.step rfl (.step rfl (.step rfl (.step rfl .refl))))) (b := 10) ?_
    cases hb : copy && cfg.trivial with
    | true =>
      simp only [sectionLoop, hb, if_true]
      refine Leads.step rfl (Leads.ff (by simpa using Ne.symm h1) ?_)
      leads
      have := At.bulkCopy (cfg := cfg) (sc := sc) (l := { l with first := 0, last_ptr := l.count1.toNat }) (copy := copy) (outs := outs)
        .two2 hb rfl (Nat.zero_add _) h1 ho (by simpa using hc)
      simp only [takeRest, sectionLoop, hb, if_true] at this
      exact this
    | false =>
      simp only [sectionLoop, hb]
      refine Leads.step rfl (Leads.ff (by simpa using Ne.symm h1) ?_)
      leads
      have := At.bulkRead (cfg := cfg) (sc := sc) (l := { l with first := 0, last_ptr := l.count1.toNat }) (copy := copy) (outs := outs)
        .two2 hb rfl (Nat.zero_add _) h1 ho (by simpa using hc)
      simp only [takeRest, sectionLoop, hb] at this
      exact this
  | two2 =>
    leads
    exact .bulkStore ho (by simpa using hc) rfl
  | one =>
    rw [if_pos rfl]
    by_cases h : l.new_read_index = cfg.size
    · refine Leads.tt (by simp [h]) ?_
      leads
      exact .bulkStore ho (by simpa using hc) (by simp [h])
    · refine Leads.ff (by simp [h]) ?_
      leads
      exact .bulkStore ho (by simpa using hc) (by simp [h])

/-- An iteration in a section of a bulk pop. -/
theorem take_next {l : Loc α} {i rem copy rest newR ctx outs} (h : TakeCtx cfg copy l rest newR ctx) (h1 : l.first = i) (h2 : i + rem = l.last_ptr)
    (ho : l.out = outs) (hc : outs.length + rem + rest = l.output_count.toNat) :
    Leads 20 (At cfg sc) l (.stm (sectionLoop cfg copy) :: takeRest cfg copy ctx) (bulkNext copy i rem rest outs newR) := by
  unfold bulkNext
  by_cases hx : rem = 0
  · rw [if_pos hx]
    have hx' : l.first = l.last_ptr := by omega
    cases hb : copy && cfg.trivial with
    | true =>
      simp only [sectionLoop, takeRest, hb, if_true]
      exact Leads.reach (a := 4) (.step rfl (.tt (by simp [hx']) (.step rfl (.step rfl .refl)))) (take_end h ho (by omega))
    | false =>
      simp only [sectionLoop, takeRest, hb]
      exact Leads.reach (a := 4) (.step rfl (.tt (by simp [hx']) (.step rfl (.step rfl .refl)))) (take_end h ho (by omega))
  · rw [if_neg hx]
    have hx' : ¬ l.first = l.last_ptr := by omega
    cases hb : copy && cfg.trivial with
    | true =>
      have := At.bulkCopy (cfg := cfg) (sc := sc) h hb h1 h2 hx ho hc
      simp only [sectionLoop, takeRest, hb, if_true] at this ⊢
      refine Leads.step rfl (Leads.ff (by simp [hx']) ?_)
      leads
      exact this
    | false =>
      have := At.bulkRead (cfg := cfg) (sc := sc) h hb h1 h2 hx ho hc
      simp only [sectionLoop, takeRest, hb] at this ⊢
      refine Leads.step rfl (Leads.ff (by simp [hx']) ?_)
      leads
      exact this

/-! ### Accesses -/

theorem out_throw {l : Loc α} {n} : Leads (n + 2) (At cfg sc) l onThrow (.ret .threw) := by
  refine Leads.step rfl (Leads.here ?_)
  exact .fin rfl

abbrev Goal (thr : Bool) (cfg : Cfg) (sc : Bool) (n : Nat) (l : Loc α) (k : LRest α) (p : PC α) : Prop :=
  Soon (mach α cfg) (okText sc) (isOut thr) (Leads n (At cfg sc) l k) p

theorem okText_go {s : St α} {p j} (h : sc = true → match p with
    | .push1 _ | .rng1 _ | .wav1 | .emp1 | .emp3 _ | .one1 | .bulk1 _ _ | .rav1 | .frt1 => j = s.wlast
    | .push2 _ _ _ | .rng2 _ _ | .wav2 _ | .emp2 _ | .one2 _ | .bulk2 _ _ _ | .rav2 _ | .frt2 _ | .frt3 => j = s.rlast
    | _ => True) : okText sc s p (.go j) := by
  have h0 : okSafe s p (.go j) := trivial
  refine ⟨h0, fun hs => ⟨h0, fun j' hj => ?_, by simp⟩, by simp⟩
  cases hj
  exact h hs

theorem okText_throw {s : St α} {p} (h : okSafe s p .throw) : okText sc s p .throw := ⟨h, fun _ => ⟨h, by simp, by simp⟩, by simp⟩

theorem okText_swap {s : St α} {p j} (h : sc = true → j = s.rlast) : okText sc s p (.swap j) :=
  ⟨trivial, fun hs => ⟨trivial, by simp, fun j' hj => by cases hj; exact h hs⟩, by simp⟩

theorem latest_go {j i : Nat} (h : latest (α := α) sc i (.go j) = true) (hs : sc = true) : j = i := by
  subst hs; simpa [latest] using h

theorem loadW_run {acq} {f : Loc α → SizeT → Loc α} {t s l ch s' l' fl} (h : (loadWrite sc acq f).run t s l ch = some (s', l', fl)) :
    ∃ j x, ch = .go j ∧ (if t = 0 then s.loadWP j else s.loadWC acq j) = some (s', x) ∧ l' = f l x ∧ fl = .next := by
  cases ch <;> simp only [loadWrite, reduceCtorEq, Option.map_eq_some_iff, Prod.exists] at h
  obtain ⟨s₁, x, h1, h2⟩ := h
  cases h2
  exact ⟨_, x, rfl, h1, rfl, rfl⟩

theorem loadR_run {acq} {f : Loc α → SizeT → Loc α} {t s l ch s' l' fl} (h : (loadRead sc acq f).run t s l ch = some (s', l', fl)) :
    ∃ j x, ch = .go j ∧ (if t = 0 then s.loadRP acq j else s.loadRC j) = some (s', x) ∧ l' = f l x ∧ fl = .next := by
  cases ch <;> simp only [loadRead, reduceCtorEq, Option.map_eq_some_iff, Prod.exists] at h
  obtain ⟨s₁, x, h1, h2⟩ := h
  cases h2
  exact ⟨_, x, rfl, h1, rfl, rfl⟩

theorem either_run {t s} {l : Loc α} {ch s' l' fl} (h : (loadEither sc).run t s l ch = some (s', l', fl)) : fl = .next ∧
    ((∃ j x, ch = .go j ∧ (if t = 0 then s.loadWP j else s.loadWC false j) = some (s', x) ∧ l' = { l with write_index := x, swapped := false }) ∨
    ∃ j x, ch = .swap j ∧ (if t = 0 then s.loadRP false j else s.loadRC j) = some (s', x) ∧ l' = { l with read_index := x, swapped := true }) := by
  cases ch <;> simp only [loadEither, reduceCtorEq, Option.map_eq_some_iff, Prod.exists] at h
  · obtain ⟨s₁, x, h1, h2⟩ := h
    cases h2
    exact ⟨rfl, .inl ⟨_, x, rfl, h1, rfl⟩⟩
  · obtain ⟨s₁, x, h1, h2⟩ := h
    cases h2
    exact ⟨rfl, .inr ⟨_, x, rfl, h1, rfl⟩⟩

/-- The producer reads the write index. -/
theorem loadWP_lt {s s' : St α} {j x pre g k} (hi : SI cfg s pre g k) (h : s.loadWP j = some (s', x)) : x.toNat < cfg.size.toNat := by
  unfold St.loadWP at h
  split at h
  · rename_i hj
    cases h
    rw [hi.wval j hj.2]
    exact Nat.mod_lt _ hi.pos
  · simp at h

theorem loadRP_lt {s s' : St α} {acq j x pre g k} (hi : SI cfg s pre g k) (h : s.loadRP acq j = some (s', x)) : x.toNat < cfg.size.toNat := by
  unfold St.loadRP at h
  split at h
  · rename_i hj
    cases h
    rw [hi.rval j hj.2]
    exact Nat.mod_lt _ hi.pos
  · simp at h

theorem loadRC_lt {s s' : St α} {j x pre g k} (hi : SI cfg s pre g k) (h : s.loadRC j = some (s', x)) : x.toNat < cfg.size.toNat := by
  unfold St.loadRC at h
  split at h
  · rename_i hj
    cases h
    rw [hi.rval j hj.2]
    exact Nat.mod_lt _ hi.pos
  · simp at h

theorem SeenW.lt {s : St α} {acq w pre g k} (hi : SI cfg s pre g k) (h : SeenW cfg s acq w) : w.toNat < cfg.size.toNat := by
  obtain ⟨_, -, h, -⟩ := h
  rw [h]
  exact Nat.mod_lt _ hi.pos

/-- Lines 132 to 157. -/
theorem range_plan {l : Loc α} {vs w r} (h1 : l.range = vs) (h2 : vs.length < 2 ^ 64) (h3 : l.write_index = w) (h4 : l.read_index = r)
    (hw : w.toNat < cfg.size.toNat) (hr : r.toNat < cfg.size.toNat) :
    Leads 60 (At cfg sc) l (.stm ((pushRange cfg sc).drop 2) :: base) (rngPlan cfg vs w r) := by
  obtain ⟨hs1, hs2, -⟩ := avail_sum hw hr
  subst h1 h3 h4
  refine Leads.step rfl (write_leads (n := 51) ?_)
  unfold rngPlan
  generalize hav : writeAvail l.write_index l.read_index cfg.size = av at hs1 ⊢
  by_cases h0 : av = 0
  · simp only [h0, if_true]
    leads
    exact .fin rfl
  · simp only [h0, if_false]
    have hm := minSize_eq (a := av) h2
    have hmn : (BitVec.ofNat 64 (min l.range.length av.toNat)).toNat = min l.range.length av.toNat := by
      simp; omega
    refine Leads.step rfl (Leads.step rfl (Leads.step rfl (Leads.ff (by simpa using h0) ?_)))
    refine Leads.reach (a := 10) (.step rfl (.step rfl (.step rfl (.step rfl (.step rfl (.step rfl (.step rfl (.step rfl (.step rfl (.step rfl
      .refl)))))))))) (b := 37) ?_
    rw [← hm] at hmn ⊢
    dsimp only [id]
    generalize minSize (BitVec.ofNat 64 l.range.length) av = cnt at hmn ⊢
    by_cases hc : l.write_index + cnt > cfg.size
    · rw [if_pos hc]
      have hc' : cfg.size.toNat < (l.write_index + cnt).toNat := hc
      have hc0 : (cfg.size - l.write_index).toNat = cfg.size.toNat - l.write_index.toNat := by
        rw [BitVec.toNat_sub]; have := cfg.size.isLt; omega
      have hsum : (l.write_index + cnt).toNat ≤ l.write_index.toNat + cnt.toNat := by
        rw [BitVec.toNat_add]; exact Nat.mod_le _ _
      refine Leads.tt (n := 36) (by simpa using hc) ?_
      refine Leads.reach (a := 10) (.step rfl (.step rfl (.step rfl (.step rfl (.step rfl (.step rfl (.step rfl (.step rfl (.step rfl (.step rfl
        .refl)))))))))) (b := 20) (copy_next (.two1 ?_ ?_) ?_ ?_ ?_ rfl rfl ?_ rfl)
      · simp only
      · intro h
        have := congrArg List.length h
        simp at this
        omega
      · exact ⟨rfl, by simp only; omega⟩
      · simp only; omega
      · simp only; omega
      · simp only [List.drop_zero, List.take_take]
        congr 1
        omega
    · rw [if_neg hc]
      refine Leads.ff (n := 36) (by simpa using hc) ?_
      refine Leads.reach (a := 6) (.step rfl (.step rfl (.step rfl (.step rfl (.step rfl (.step rfl .refl)))))) (b := 20)
        (copy_next .one ?_ ?_ ?_ rfl rfl ?_ rfl)
      · exact ⟨rfl, by simp only; omega⟩
      · simp only; omega
      · simp only; omega
      · simp only [List.drop_zero]

/-- Lines 202 to 225 and the same in the siblings of `consume_all`. -/
theorem take_plan {l : Loc α} {copy lim w r} (h1 : l.out = []) (h2 : ∀ n, lim = some n → n < 2 ^ 64 ∧ l.output_count = BitVec.ofNat 64 n)
    (h3 : l.write_index = w) (h4 : l.read_index = r) (hw : w.toNat < cfg.size.toNat) (hr : r.toNat < cfg.size.toNat) :
    Leads 60 (At cfg sc) l (.stm ((takeMany cfg sc copy lim.isSome).drop 2) :: base) (bulkPlan cfg copy lim w r) := by
  obtain ⟨hs1, hs2, -⟩ := avail_sum hw hr
  subst h3 h4
  refine Leads.step rfl (read_leads (n := 51) ?_)
  unfold bulkPlan
  generalize hav : readAvail l.write_index l.read_index cfg.size = av at hs1 hs2 ⊢
  by_cases h0 : av = 0
  · simp only [h0, if_true]
    leads
    exact .fin rfl
  · simp only [h0, if_false]
    have hm : (if lim.isSome then minSize l.output_count av else av) = BitVec.ofNat 64 (atMost lim av.toNat) := by
      cases lim with
      | none => simp [atMost]
      | some n =>
        obtain ⟨h5, h6⟩ := h2 n rfl
        simp only [Option.isSome, if_true, h6, atMost, minSize_eq h5]
    have hmn : (BitVec.ofNat 64 (atMost lim av.toNat)).toNat ≤ av.toNat := by
      have : atMost lim av.toNat ≤ av.toNat := by cases lim <;> simp [atMost]; omega
      simp; omega
    refine Leads.step rfl (Leads.step rfl (Leads.step rfl (Leads.ff (by simpa using h0) ?_)))
    refine Leads.reach (a := 6) (.step rfl (.step rfl (.step rfl (.step rfl (.step rfl (.step rfl .refl)))))) (b := 37) ?_
    rw [← hm] at hmn ⊢
    dsimp only [id]
    generalize (if lim.isSome then minSize l.output_count av else av) = cnt at hmn ⊢
    by_cases hc : l.read_index + cnt > cfg.size
    · rw [if_pos hc]
      have hc' : cfg.size.toNat < (l.read_index + cnt).toNat := hc
      have hc0 : (cfg.size - l.read_index).toNat = cfg.size.toNat - l.read_index.toNat := by
        rw [BitVec.toNat_sub]; have := cfg.size.isLt; omega
      have hsum : (l.read_index + cnt).toNat ≤ l.read_index.toNat + cnt.toNat := by
        rw [BitVec.toNat_add]; exact Nat.mod_le _ _
      have hc1 : (cnt - (cfg.size - l.read_index)).toNat = cnt.toNat - (cfg.size.toNat - l.read_index.toNat) := by
        rw [BitVec.toNat_sub, hc0]; have := cnt.isLt; omega
      refine Leads.tt (n := 36) (by simpa using hc) ?_
      refine Leads.reach (a := 9) (.step rfl (.step rfl (.step rfl (.step rfl (.step rfl (.step rfl (.step rfl (.step rfl (.step rfl
        .refl))))))))) (b := 20) (take_next (.two1 ?_) rfl ?_ h1 ?_)
      · simp only; omega
      · simp only; omega
      · simp only [List.length_nil]; omega
    · rw [if_neg hc]
      refine Leads.ff (n := 36) (by simpa using hc) ?_
      refine Leads.reach (a := 5) (.step rfl (.step rfl (.step rfl (.step rfl (.step rfl .refl))))) (b := 20)
        (take_next .one rfl ?_ h1 ?_)
      · simp only
      · simp only [List.length_nil]; omega

set_option maxHeartbeats 1000000 in
theorem access (t : Nat) (s : St α) (l : Loc α) (a : LAcc α) (k : LRest α) (p : PC α)
    (ch : Choice α) (s' : St α) (l' : Loc α) (f : Flow) (hI : TextInv cfg t s p) (hat : At cfg sc l (.stm (.acc a) :: k) p)
    (hok : a.ok s l ch = true) (hr : a.run t s l ch = some (s', l', f)) :
    ∃ p', okText sc s p ch ∧ tstep cfg t s p ch = some (s', p', none) ∧ f.ifUb (p' = .err) (Goal thr cfg sc 60 l' (f.rest k) p') := by
  generalize hk : Item.stm (.acc a) :: k = K at hat
  cases hat with
  | @push1 v h1 =>
    cases hk
    obtain ⟨rfl, _, _, _, hi, -⟩ := hI.prod
    obtain ⟨j, x, rfl, h2, rfl, rfl⟩ := loadW_run hr
    have h2 : s.loadWP j = some (s', x) := h2
    have h3 := loadWP_lt hi h2
    obtain ⟨nx, h4, -⟩ := nextIndex_exact h3
    refine ⟨.push2 v x nx, okText_go (latest_go (α := α) hok), by simp [tstep, h2, h4, tau], .inl ?_⟩
    refine Leads.reach (a := 3) (.step rfl (.step rfl (.step rfl .refl))) (b := 50) (next_leads (n := 38) h3 h4 ?_)
    leads
    exact .push2 h1 rfl rfl
  | @push2 v w nx h1 h2 h3 =>
    cases hk
    obtain ⟨rfl, _, _, _, hi, -⟩ := hI.prod
    obtain ⟨j, x, rfl, h4, rfl, rfl⟩ := loadR_run hr
    have h4 : s.loadRP true j = some (s', x) := h4
    refine ⟨_, okText_go (latest_go (α := α) hok), by simp [tstep, h4, tau]; rfl, .inl ?_⟩
    simp only [Flow.rest]
    by_cases h5 : nx = x
    · simp only [h5, if_true]
      refine Leads.step rfl (Leads.tt (by simp [h3, h5]) ?_)
      leads
      exact .fin rfl
    · simp only [h5, if_false]
      refine Leads.step rfl (Leads.ff (by simp [h3, h5]) ?_)
      leads
      exact .push3 h1 h2 h3
  | @push3 v w nx h1 h2 h3 =>
    cases hk
    subst h2 h3
    simp only [construct, h1] at hr
    cases ch <;> simp at hr
    · rename_i j
      cases hc : s.construct cfg l.write_index.toNat v with
      | none =>
        simp [hc] at hr
        obtain ⟨rfl, rfl, rfl⟩ := hr
        exact ⟨.err, okText_go fun _ => trivial, by simp [tstep, hc, orErr, tau], rfl⟩
      | some s₁ =>
        simp [hc] at hr
        obtain ⟨rfl, rfl, rfl⟩ := hr
        refine ⟨.push4 v l.next, okText_go fun _ => trivial, by simp [tstep, hc, orErr, tau], .inl ?_⟩
        simp only [Flow.rest]
        leads
        exact .push4 h1 rfl
    · obtain ⟨rfl, rfl, rfl⟩ := hr
      exact ⟨.ret .threw, okText_throw trivial, rfl, .inl (out_throw (n := 58))⟩
  | @push4 v nx h1 h2 =>
    cases hk
    subst h2
    cases ch <;> simp [storeWrite] at hr
    obtain ⟨rfl, rfl, rfl⟩ := hr
    refine ⟨_, okText_go fun _ => trivial, by simp [tstep, h1, tau]; rfl, .inl ?_⟩
    simp only [Flow.rest]
    leads
    exact .fin rfl
  | @rng1 vs h1 h2 =>
    cases hk
    obtain ⟨rfl, _, _, _, hi, -⟩ := hI.prod
    obtain ⟨j, x, rfl, h3, rfl, rfl⟩ := loadW_run hr
    have h3 : s.loadWP j = some (s', x) := h3
    refine ⟨_, okText_go (latest_go (α := α) hok), by simp [tstep, h3, tau]; rfl, .inl ?_⟩
    simp only [Flow.rest]
    leads
    exact .rng2 h1 h2 rfl
  | @rng2 vs w h1 h2 h3 =>
    cases hk
    obtain ⟨rfl, _, _, _, hi, hp⟩ := hI.prod
    obtain ⟨j, x, rfl, h4, rfl, rfl⟩ := loadR_run hr
    have h4 : s.loadRP true j = some (s', x) := h4
    have hw : w.toNat < cfg.size.toNat := by rw [hp.2]; exact Nat.mod_lt _ hi.pos
    exact ⟨_, okText_go (latest_go (α := α) hok), by simp [tstep, h4, tau], .inl (range_plan (l := setR l x) h1 h2 h3 rfl hw (loadRP_lt hi h4))⟩
  | @rngCopy start dst xs rest second total newW cov ctx h1 h2 h3 h4 h5 h6 h7 h8 =>
    cases hk
    subst h4 h5
    obtain ⟨x, xs', rfl⟩ := List.exists_cons_of_ne_nil h7
    have hlen := congrArg List.length h6
    simp [Nat.min_eq_left h3] at hlen
    have hx : l.range[l.src]? = some x := by
      have := congrArg List.head? h6
      simp [List.head?_drop, List.getElem?_take] at this
      exact this.2.symm
    have hxs : xs' = (l.range.take l.src_last).drop (l.src + 1) := by
      have := congrArg List.tail h6
      simpa using this
    simp only [construct, hx] at hr
    cases ch <;> simp at hr
    · rename_i j
      cases hc : s.construct cfg l.current x with
      | none =>
        simp [hc] at hr
        obtain ⟨rfl, rfl, rfl⟩ := hr
        exact ⟨.err, okText_go fun _ => trivial, by simp [tstep, hc, orErr, tau], rfl⟩
      | some s₁ =>
        simp [hc] at hr
        obtain ⟨rfl, rfl, rfl⟩ := hr
        refine ⟨_, okText_go fun _ => trivial, by simp only [tstep, hc, orErr, tau]; rfl, .inl ?_⟩
        refine Leads.reach (a := 2) (l' := { l with src := l.src + 1, current := l.current + 1 }) (.step rfl (.step rfl .refl)) (b := 20)
          (copy_next (h1.congr rfl rfl rfl rfl) h2 h3 ?_ rfl rfl hxs h8)
        simp only; omega
    · obtain ⟨rfl, rfl, rfl⟩ := hr
      have hs : second = false := by
        cases h1 <;> first | rfl | exact absurd hok (by simp [construct])
      by_cases he : l.d_first = l.current
      · refine ⟨.ret .threw, okText_throw hs, by simp [tstep, he, tau], .inl ?_⟩
        simp only [Flow.rest]
        refine Leads.reach (a := 6) (k' := onThrow) (.step rfl (.step rfl (.step rfl (.tt (by simp [he]) (.step rfl (.step (l₁ := l) (k₁ := onThrow) ?_ .refl)))))) (b := 5) out_throw
        simpa [ctl, undo, Stm.drop, toHandler, afterLoop] using copy_handler h1
      · refine ⟨.rngUnwind l.d_first l.current, okText_throw hs, by simp [tstep, he, tau], .inl ?_⟩
        simp only [Flow.rest]
        refine Leads.step rfl (Leads.step rfl (Leads.step rfl (Leads.ff (by simp [he]) ?_)))
        leads
        exact .rngUnwind rfl rfl (copy_handler h1)
  | @rngUnwind i stop ctx h1 h2 h3 =>
    cases hk
    subst h1 h2
    obtain ⟨rfl, _, _, _, hi, -⟩ := hI.prod
    cases ch <;> simp [destroy] at hr
    cases hc : s.destroyP cfg l.d_first with
    | none =>
      simp [hc] at hr
      obtain ⟨rfl, rfl, rfl⟩ := hr
      exact ⟨.err, okText_go fun _ => trivial, by simp [tstep, hc, orErr, tau], rfl⟩
    | some s₁ =>
      simp [hc] at hr
      obtain ⟨rfl, rfl, rfl⟩ := hr
      refine ⟨_, okText_go fun _ => trivial, by simp only [tstep, hc, orErr, tau]; rfl, .inl ?_⟩
      simp only [Flow.rest]
      by_cases he : l.d_first + 1 = l.current
      · rw [if_pos he]
        refine Leads.reach (a := 6) (k' := onThrow) (l' := { l with d_first := l.d_first + 1 })
          (.step rfl (.step rfl (.step rfl (.tt (by simp [he]) (.step rfl (.step (l₁ := _) (k₁ := onThrow) ?_ .refl)))))) (b := 5)
          (out_throw (n := 3))
        simpa [ctl, undo, Stm.drop, toHandler, afterLoop] using h3
      · rw [if_neg he]
        refine Leads.step rfl (Leads.step rfl (Leads.step rfl (Leads.ff (by simp [he]) ?_)))
        leads
        exact .rngUnwind rfl rfl h3
  | @rngStore total newW h1 h2 h3 =>
    cases hk
    subst h2 h3
    cases ch <;> simp [storeWrite] at hr
    obtain ⟨rfl, rfl, rfl⟩ := hr
    refine ⟨_, okText_go fun _ => trivial, rfl, .inl ?_⟩
    simp only [Flow.rest]
    leads
    refine .fin ?_
    have := h1.1
    have := h1.2
    simp only [List.length_take, Ret.pushedMany.injEq]
    omega
  | wav1 =>
    cases hk
    obtain ⟨rfl, _, _, _, hi, -⟩ := hI.prod
    obtain ⟨j, x, rfl, h3, rfl, rfl⟩ := loadW_run hr
    have h3 : s.loadWP j = some (s', x) := h3
    refine ⟨.wav2 x, okText_go (latest_go (α := α) hok), by simp [tstep, h3, tau], .inl ?_⟩
    simp only [Flow.rest]
    leads
    exact .wav2 rfl
  | @wav2 w h1 =>
    cases hk
    subst h1
    obtain ⟨rfl, _, _, _, hi, -⟩ := hI.prod
    obtain ⟨j, x, rfl, h3, rfl, rfl⟩ := loadR_run hr
    have h3 : s.loadRP true j = some (s', x) := h3
    refine ⟨_, okText_go (latest_go (α := α) hok), by simp [tstep, h3, tau]; rfl, .inl ?_⟩
    refine write_leads (n := 52) ?_
    leads
    exact .fin rfl
  | emp1 =>
    cases hk
    obtain ⟨rfl, ⟨j, x, rfl, h3, rfl⟩ | ⟨j, x, rfl, h3, rfl⟩⟩ := either_run hr
    · refine ⟨.emp2 x, okText_go (latest_go (α := α) hok), by cases t <;> simp at h3 <;> simp [tstep, h3, tau], .inl ?_⟩
      simp only [Flow.rest]
      leads
      exact .emp2 rfl
    · refine ⟨.emp3 x, okText_swap (fun h => ?_), by cases t <;> simp at h3 <;> simp [tstep, h3, tau], .inl ?_⟩
      · subst h; simpa [loadEither] using hok
      simp only [Flow.rest]
      leads
      exact .emp3 rfl
  | @emp2 w h1 =>
    cases hk
    subst h1
    obtain ⟨j, x, rfl, h3, rfl, rfl⟩ := loadR_run hr
    refine ⟨.ret (.isEmpty (l.write_index == x)), okText_go (latest_go (α := α) hok), by cases t <;> simp at h3 <;> simp [tstep, h3, tau], .inl ?_⟩
    simp only [Flow.rest]
    leads
    exact .fin rfl
  | @emp3 r h1 =>
    cases hk
    subst h1
    obtain ⟨j, x, rfl, h3, rfl, rfl⟩ := loadW_run hr
    refine ⟨.ret (.isEmpty (x == l.read_index)), okText_go (latest_go (α := α) hok), by cases t <;> simp at h3 <;> simp [tstep, h3, tau], .inl ?_⟩
    simp only [Flow.rest]
    leads
    exact .fin rfl
  | one1 h1 =>
    cases hk
    obtain ⟨rfl, _, _, _, hi, -⟩ := hI.cons
    obtain ⟨j, x, rfl, h3, rfl, rfl⟩ := loadW_run hr
    have h3 : s.loadWC true j = some (s', x) := h3
    refine ⟨.one2 x, okText_go (latest_go (α := α) hok), by simp [tstep, h3, tau], .inl ?_⟩
    simp only [Flow.rest]
    leads
    exact .one2 h1 rfl
  | @one2 w h1 h2 =>
    cases hk
    subst h2
    obtain ⟨rfl, _, _, _, hi, -⟩ := hI.cons
    obtain ⟨j, x, rfl, h3, rfl, rfl⟩ := loadR_run hr
    have h3 : s.loadRC j = some (s', x) := h3
    refine ⟨if l.write_index = x then .ret (.popped none) else .one3 x, okText_go (latest_go (α := α) hok), by simp [tstep, h3, tau], .inl ?_⟩
    simp only [Flow.rest]
    by_cases h5 : l.write_index = x
    · simp only [h5, if_true]
      refine Leads.step rfl (Leads.tt (by simp [h5]) ?_)
      leads
      exact .fin rfl
    · simp only [h5, if_false]
      refine Leads.step rfl (Leads.ff (by simp [h5]) ?_)
      leads
      exact .one3 h1 rfl
  | @one3 r h1 h2 =>
    cases hk
    subst h2
    cases ch <;> simp [take] at hr
    · cases hc : s.readC cfg l.read_index.toNat with
      | none =>
        simp [hc] at hr
        obtain ⟨rfl, rfl, rfl⟩ := hr
        exact ⟨.err, okText_go fun _ => trivial, by simp [tstep, hc, tau], rfl⟩
      | some x =>
        obtain ⟨s₁, v⟩ := x
        simp [hc] at hr
        obtain ⟨rfl, rfl, rfl⟩ := hr
        refine ⟨.one4 v l.read_index, okText_go fun _ => trivial, by simp [tstep, hc, tau], .inl ?_⟩
        simp only [Flow.rest]
        leads
        exact .one4 (by simp [h1]) rfl
    · cases hc : s.readC cfg l.read_index.toNat with
      | none =>
        simp [hc] at hr
        obtain ⟨rfl, rfl, rfl⟩ := hr
        exact ⟨.err, okText_throw trivial, by simp [tstep, hc, tau], rfl⟩
      | some x =>
        obtain ⟨s₁, v⟩ := x
        simp [hc] at hr
        obtain ⟨rfl, rfl, rfl⟩ := hr
        exact ⟨.ret .threw, okText_throw trivial, by simp [tstep, hc, tau], .inl (out_throw (n := 58))⟩
  | @one4 v r h1 h2 =>
    cases hk
    subst h2
    obtain ⟨rfl, _, _, _, hi, hl⟩ := hI.cons
    have hlt : l.read_index.toNat < cfg.size.toNat := by rw [hl.2.2.1]; exact Nat.mod_lt _ hi.pos
    cases ch <;> simp [destroy] at hr
    cases hc : s.destroyC cfg l.read_index.toNat with
    | none =>
      simp [hc] at hr
      obtain ⟨rfl, rfl, rfl⟩ := hr
      exact ⟨.err, okText_go fun _ => trivial, by simp [tstep, hc, orErr, tau], rfl⟩
    | some s₁ =>
      simp [hc] at hr
      obtain ⟨rfl, rfl, rfl⟩ := hr
      obtain ⟨nx, h4, -⟩ := nextIndex_exact hlt
      refine ⟨.one5 v l.read_index, okText_go fun _ => trivial, by simp [tstep, hc, orErr, tau], .inl ?_⟩
      refine Leads.reach (a := 3) (.step rfl (.step rfl (.step rfl .refl))) (b := 50) (next_leads (n := 38) hlt h4 ?_)
      leads
      exact .one5 h1 h4
  | @one5 v r h1 h2 =>
    cases hk
    cases ch <;> simp [storeRead] at hr
    obtain ⟨rfl, rfl, rfl⟩ := hr
    refine ⟨.ret (.popped (some v)), okText_go fun _ => trivial, by simp [tstep, h2, tau], .inl ?_⟩
    simp only [Flow.rest]
    leads
    exact .fin (by simp [h1])
  | @bulk1 copy lim h1 h2 =>
    cases hk
    obtain ⟨rfl, _, _, _, hi, -⟩ := hI.cons
    obtain ⟨j, x, rfl, h3, rfl, rfl⟩ := loadW_run hr
    have h3 : s.loadWC true j = some (s', x) := h3
    refine ⟨.bulk2 copy lim x, okText_go (latest_go (α := α) hok), by simp [tstep, h3, tau], .inl ?_⟩
    simp only [Flow.rest]
    leads
    exact .bulk2 h1 h2 rfl
  | @bulk2 copy lim w h1 h2 h3 =>
    cases hk
    obtain ⟨rfl, _, _, _, hi, hl⟩ := hI.cons
    obtain ⟨j, x, rfl, h4, rfl, rfl⟩ := loadR_run hr
    have h4 : s.loadRC j = some (s', x) := h4
    exact ⟨bulkPlan cfg copy lim w x, okText_go (latest_go (α := α) hok), by simp [tstep, h4, tau],
      .inl (take_plan (l := setR l x) h1 h2 h3 rfl (SeenW.lt hi hl.2.2) (loadRC_lt hi h4))⟩
  | @bulkCopy copy i rem rest outs newR ctx h1 h2 h3 h4 h5 h6 h7 =>
    cases hk
    subst h3 h6
    cases ch <;> simp [take] at hr
    · cases hc : s.readC cfg l.first with
      | none =>
        simp [hc] at hr
        obtain ⟨rfl, rfl, rfl⟩ := hr
        exact ⟨.err, okText_go fun _ => trivial, by simp [tstep, hc, tau], rfl⟩
      | some x =>
        obtain ⟨s₁, v⟩ := x
        simp [hc] at hr
        obtain ⟨rfl, rfl, rfl⟩ := hr
        refine ⟨bulkNext copy (l.first + 1) (rem - 1) rest (l.out ++ [v]) newR, okText_go fun _ => trivial, by simp only [tstep, hc, h2, tau]; rfl, .inl ?_⟩
        refine Leads.reach (a := 2) (l' := { l with out := l.out ++ [v], first := l.first + 1 }) (.step rfl (.step rfl .refl)) (b := 20)
          (take_next (h1.congr rfl rfl) rfl ?_ rfl ?_)
        · simp only; omega
        · simp only [List.length_append, List.length_singleton]; omega
    · have ho : l.out = [] := by simpa [take] using hok
      cases hc : s.readC cfg l.first with
      | none =>
        simp [hc] at hr
        obtain ⟨rfl, rfl, rfl⟩ := hr
        exact ⟨.err, okText_throw ho, by simp [tstep, hc, tau], rfl⟩
      | some x =>
        obtain ⟨s₁, v⟩ := x
        simp [hc] at hr
        obtain ⟨rfl, rfl, rfl⟩ := hr
        refine ⟨.ret .threw, okText_throw ho, by simp [tstep, hc, tau], .inl ?_⟩
        have : toHandler (.stm ((stdCopyLoop cfg).drop 2) :: takeRest cfg copy ctx) = onThrow :=
          show toHandler ctx = onThrow from take_handler h1
        simp only [Flow.rest, this]
        exact out_throw (n := 58)
  | @bulkRead copy i rem rest outs newR ctx h1 h2 h3 h4 h5 h6 h7 =>
    cases hk
    subst h3 h6
    cases ch <;> simp [take] at hr
    · cases hc : s.readC cfg l.first with
      | none =>
        simp [hc] at hr
        obtain ⟨rfl, rfl, rfl⟩ := hr
        exact ⟨.err, okText_go fun _ => trivial, by simp [tstep, hc, tau], rfl⟩
      | some x =>
        obtain ⟨s₁, v⟩ := x
        simp [hc] at hr
        obtain ⟨rfl, rfl, rfl⟩ := hr
        refine ⟨.bulkDestroy copy l.first rem rest (l.out ++ [v]) newR, okText_go fun _ => trivial,
          by simp only [tstep, hc, h2, tau]; rfl, .inl ?_⟩
        simp only [Flow.rest]
        leads
        refine .bulkDestroy (h1.congr rfl rfl) h2 rfl h4 h5 rfl ?_
        simp only [List.length_append, List.length_singleton]; omega
    · have ho : l.out = [] := by simpa [take] using hok
      cases hc : s.readC cfg l.first with
      | none =>
        simp [hc] at hr
        obtain ⟨rfl, rfl, rfl⟩ := hr
        exact ⟨.err, okText_throw ho, by simp [tstep, hc, tau], rfl⟩
      | some x =>
        obtain ⟨s₁, v⟩ := x
        simp [hc] at hr
        obtain ⟨rfl, rfl, rfl⟩ := hr
        refine ⟨.ret .threw, okText_throw ho, by simp [tstep, hc, tau], .inl ?_⟩
        have : toHandler (.stm ((takeLoop cfg).drop 2) :: takeRest cfg copy ctx) = onThrow :=
          show toHandler ctx = onThrow from take_handler h1
        simp only [Flow.rest, this]
        exact out_throw (n := 58)
  | @bulkDestroy copy i rem rest outs newR ctx h1 h2 h3 h4 h5 h6 h7 =>
    cases hk
    subst h3 h6
    obtain ⟨rfl, _, _, _, hi, hl⟩ := hI.cons
    cases ch <;> simp [destroy] at hr
    cases hc : s.destroyC cfg l.first with
    | none =>
      simp [hc] at hr
      obtain ⟨rfl, rfl, rfl⟩ := hr
      exact ⟨.err, okText_go fun _ => trivial, by simp [tstep, hc, orErr, tau], rfl⟩
    | some s₁ =>
      simp [hc] at hr
      obtain ⟨rfl, rfl, rfl⟩ := hr
      refine ⟨bulkNext copy (l.first + 1) (rem - 1) rest l.out newR, okText_go fun _ => trivial, by simp [tstep, hc, orErr, tau], .inl ?_⟩
      refine Leads.reach (a := 2) (l' := { l with first := l.first + 1 }) (.step rfl (.step rfl .refl)) (b := 20)
        (take_next (h1.congr rfl rfl) rfl ?_ rfl ?_)
      · simp only; omega
      · simp only; omega
  | @bulkStore outs newR h1 h2 h3 =>
    cases hk
    subst h1 h3
    cases ch <;> simp [storeRead] at hr
    obtain ⟨rfl, rfl, rfl⟩ := hr
    refine ⟨.ret (.poppedMany l.out), okText_go fun _ => trivial, by simp [tstep, h2, tau], .inl ?_⟩
    simp only [Flow.rest]
    leads
    exact .fin (by simp [← h2]) (by simp [Output, ← h2])
  | rav1 =>
    cases hk
    obtain ⟨rfl, _, _, _, hi, -⟩ := hI.cons
    obtain ⟨j, x, rfl, h3, rfl, rfl⟩ := loadW_run hr
    have h3 : s.loadWC true j = some (s', x) := h3
    refine ⟨.rav2 x, okText_go (latest_go (α := α) hok), by simp [tstep, h3, tau], .inl ?_⟩
    simp only [Flow.rest]
    leads
    exact .rav2 rfl
  | @rav2 w h1 =>
    cases hk
    subst h1
    obtain ⟨rfl, _, _, _, hi, -⟩ := hI.cons
    obtain ⟨j, x, rfl, h3, rfl, rfl⟩ := loadR_run hr
    have h3 : s.loadRC j = some (s', x) := h3
    refine ⟨_, okText_go (latest_go (α := α) hok), by simp [tstep, h3, tau]; rfl, .inl ?_⟩
    refine read_leads (n := 52) ?_
    leads
    exact .fin rfl
  | frt1 =>
    cases hk
    obtain ⟨rfl, _, _, _, hi, -⟩ := hI.cons
    obtain ⟨j, x, rfl, h3, rfl, rfl⟩ := loadW_run hr
    have h3 : s.loadWC true j = some (s', x) := h3
    refine ⟨.frt2 x, okText_go (latest_go (α := α) hok), by simp [tstep, h3, tau], .inl ?_⟩
    simp only [Flow.rest]
    leads
    exact .frt2 rfl
  | @frt2 w h1 =>
    cases hk
    subst h1
    obtain ⟨rfl, _, _, _, hi, -⟩ := hI.cons
    obtain ⟨j, x, rfl, h3, rfl, rfl⟩ := loadR_run hr
    have h3 : s.loadRC j = some (s', x) := h3
    refine ⟨if readAvail l.write_index x cfg.size = 0 then .ret .asserted else .frt3, okText_go (latest_go (α := α) hok),
      by simp [tstep, h3, tau], .inl ?_⟩
    refine read_leads (n := 52) ?_
    by_cases h5 : readAvail l.write_index x cfg.size = 0
    · simp only [h5, if_true]
      refine Leads.step rfl (Leads.tt (by simp) ?_)
      leads
      exact .fin rfl
    · simp only [h5, if_false]
      refine Leads.step rfl (Leads.ff (by simpa using h5) ?_)
      leads
      exact .frt3
  | frt3 =>
    cases hk
    obtain ⟨rfl, _, _, _, hi, -⟩ := hI.cons
    obtain ⟨j, x, rfl, h3, rfl, rfl⟩ := loadR_run hr
    have h3 : s.loadRC j = some (s', x) := h3
    refine ⟨.frt4 x, okText_go (latest_go (α := α) hok), by simp [tstep, h3, tau], .inl ?_⟩
    simp only [Flow.rest]
    leads
    exact .frt4 rfl
  | @frt4 r h1 =>
    cases hk
    subst h1
    cases ch <;> simp [readFront] at hr
    cases hc : s.readC cfg l.read_index.toNat with
    | none =>
      simp [hc] at hr
      obtain ⟨rfl, rfl, rfl⟩ := hr
      exact ⟨.err, okText_go fun _ => trivial, by simp [tstep, hc, tau], rfl⟩
    | some x =>
      obtain ⟨s₁, v⟩ := x
      simp [hc] at hr
      obtain ⟨rfl, rfl, rfl⟩ := hr
      refine ⟨.ret (.front v), okText_go fun _ => trivial, by simp [tstep, hc, tau], .inl ?_⟩
      simp only [Flow.rest]
      leads
      exact .fin rfl
  | fin => simp at hk

/-! ### Refinement -/

/-- The beginning of a call. -/
theorem call_start (t : Nat) (s : St α) (o : Op α) (l : Loc α) (a : LStm α) (hb : (program α cfg sc).body t o = some (l, a)) (hf : fits o) :
    ∃ p, start t o = some p ∧ Goal thr cfg sc 60 l [.stm a] p := by
  simp only [program] at hb
  split at hb
  · rename_i hr
    unfold role at hr
    split at hr <;> simp only [body, Option.some.injEq, Prod.mk.injEq] at hb <;> first | (obtain ⟨rfl, rfl⟩ := hb) | skip
    · refine ⟨_, rfl, .inl ?_⟩
      leads
      exact .push1 rfl
    · refine ⟨_, rfl, .inl ?_⟩
      leads
      exact .rng1 rfl hf
    · refine ⟨_, rfl, .inl ?_⟩
      leads
      exact .wav1
    · refine ⟨_, rfl, .inl ?_⟩
      leads
      exact .emp1
    · refine ⟨_, rfl, .inl ?_⟩
      leads
      exact .emp1
    · refine ⟨_, rfl, .inl ?_⟩
      leads
      exact .one1 rfl
    · rename_i copy lim
      match copy, lim, hb, hf with
      | copy, none, hb, hf =>
        cases hb
        refine ⟨_, rfl, .inl ?_⟩
        leads
        exact .bulk1 (lim := none) rfl (by simp)
      | true, some n, hb, hf =>
        cases hb
        refine ⟨_, rfl, .inl ?_⟩
        leads
        exact .bulk1 (lim := some n) rfl fun m hm => by cases hm; exact ⟨hf, rfl⟩
    · refine ⟨_, rfl, .inl ?_⟩
      leads
      exact .rav1
    · rename_i checked
      refine ⟨_, rfl, .inl ?_⟩
      cases checked
      · simp only [front]
        leads
        exact .frt3
      · simp only [front, if_true]
        leads
        exact .frt1
    · simp at hr
  · simp at hb

/-- The text refines the machine, step by step with the same exceptions. -/
theorem refines_out (thr : Bool) : Refines (program α cfg sc) (mach α cfg) okCall (okText sc) (isOut thr) .err (TextInv cfg) (At cfg sc) 60 where
  call t s o l a hb ho := by
    obtain ⟨p, h1, h2⟩ := call_start t s o l a hb ho.1
    have hs : okSafe s .idle (.call o) := by
      cases o <;> try trivial
      rename_i b
      cases b
      · exact ho.2 rfl
      · trivial
    refine ⟨.call o, p, rfl, ⟨hs, fun _ => ⟨hs, by simp⟩, ?_⟩, by simp [mach, tstep, h1], h2⟩
    rintro o' ⟨⟩
    exact ho.1
  head _ _ _ h := h.head
  access := access
  fin l p h := by
    generalize hk : ([] : LRest α) = K at h
    cases h with
    | fin hr => rw [← hr]; rfl
    | _ => simp at hk
  res t s r := ⟨.go 0, rfl, okText_go fun _ => trivial, rfl⟩
  env t s p ch s' h := by
    simp only [program] at h
    split at h
    · cases h; exact ⟨⟨trivial, fun _ => ⟨trivial, by simp, by simp⟩, by simp⟩, rfl⟩
    · cases h; exact ⟨⟨trivial, fun _ => ⟨trivial, by simp, by simp⟩, by simp⟩, rfl⟩
    · simp at h

/-- The text refines the machine. -/
theorem refines : Refines (program α cfg sc) (mach α cfg) okCall (okText sc) isSync .err (TextInv cfg) (At cfg sc) 60 := refines_out false

theorem loadW_can {acq} {f : Loc α → SizeT → Loc α} {t s l j z} (h : (if t = 0 then s.loadWP j else s.loadWC acq j) = some z) :
    ∃ z, (loadWrite sc acq f).run t s l (.go j) = some z := by
  simp [loadWrite, h]

theorem loadR_can {acq} {f : Loc α → SizeT → Loc α} {t s l j z} (h : (if t = 0 then s.loadRP acq j else s.loadRC j) = some z) :
    ∃ z, (loadRead sc acq f).run t s l (.go j) = some z := by
  simp [loadRead, h]

/-- Whatever the machine does, the text can do. -/
theorem complete : Complete (program α cfg sc) (mach α cfg) okCall (okText sc) isSync .err (TextInv cfg) (At cfg sc) 60 where
  call t s ch s' p e hv hok hs := by
    cases ch with
    | call o =>
      cases ho : start t o with
      | none => simp [mach, tstep, ho] at hs
      | some p' =>
        simp [mach, tstep, ho] at hs
        obtain ⟨rfl, rfl, rfl⟩ := hs
        have hf : fits o := hok.2.2 o rfl
        have hb : ∃ l a, (program α cfg sc).body t o = some (l, a) := by
          unfold start at ho
          split at ho <;> first | exact ⟨_, _, rfl⟩ | (simp at ho; done) | skip
          rename_i copy lim
          match copy, lim, hf with
          | copy, none, _ => exact ⟨_, _, rfl⟩
          | true, some n, _ => exact ⟨_, _, rfl⟩
        obtain ⟨l, a, hb⟩ := hb
        obtain ⟨p₁, h1, h2⟩ := call_start t s o l a hb hf
        rw [ho] at h1
        cases h1
        refine ⟨o, l, a, hb, ⟨hf, ?_⟩, rfl, rfl, h2⟩
        rintro rfl
        exact hok.1
    | go j => simp [mach, tstep] at hs
    | swap j => simp [mach, tstep] at hs
    | throw => simp [mach, tstep] at hs
    | sync =>
      exfalso
      match t with
      | 0 | 1 => simp [program] at hv
      | t + 2 => simp [mach, tstep] at hs
  access t s l a k p ch y hI hat hv hok hs := by
    have hcall : ∀ o, ch ≠ .call o := by
      rintro o rfl
      generalize hk : Item.stm (.acc a) :: k = K at hat
      cases hat <;> simp [mach, tstep] at hs hk
    have hsync : ch ≠ .sync := by
      rintro rfl
      match t with
      | 0 | 1 => simp [program] at hv
      | t + 2 => simp [mach, tstep] at hs
    have lat : ∀ {j x : Nat}, (sc = true → j = x) → latest (α := α) sc x (.go j) = true := by
      intro j x h
      cases sc
      · rfl
      · simp [latest, h rfl]
    generalize hk : Item.stm (.acc a) :: k = K at hat
    cases ch with
    | call o => exact (hcall o rfl).elim
    | sync => exact (hsync rfl).elim
    | go j =>
      cases hat with
      | push1 =>
        cases hk
        obtain ⟨rfl, -⟩ := hI.prod
        cases hc : s.loadWP j with
        | none => simp [mach, tstep, hc] at hs
        | some z => exact ⟨lat fun h => (hok.2.1 h).2.1 j rfl, loadW_can hc⟩
      | push2 =>
        cases hk
        obtain ⟨rfl, -⟩ := hI.prod
        cases hc : s.loadRP true j with
        | none => simp [mach, tstep, hc] at hs
        | some z => exact ⟨lat fun h => (hok.2.1 h).2.1 j rfl, loadR_can hc⟩
      | push3 =>
        cases hk
        refine ⟨rfl, Option.isSome_iff_exists.1 ?_⟩
        simp only [construct]
        (repeat' split) <;> first | rfl | simp_all
      | push4 => cases hk; exact ⟨rfl, _, rfl⟩
      | rng1 =>
        cases hk
        obtain ⟨rfl, -⟩ := hI.prod
        cases hc : s.loadWP j with
        | none => simp [mach, tstep, hc] at hs
        | some z => exact ⟨lat fun h => (hok.2.1 h).2.1 j rfl, loadW_can hc⟩
      | rng2 =>
        cases hk
        obtain ⟨rfl, -⟩ := hI.prod
        cases hc : s.loadRP true j with
        | none => simp [mach, tstep, hc] at hs
        | some z => exact ⟨lat fun h => (hok.2.1 h).2.1 j rfl, loadR_can hc⟩
      | rngCopy =>
        cases hk
        refine ⟨rfl, Option.isSome_iff_exists.1 ?_⟩
        simp only [construct]
        (repeat' split) <;> first | rfl | simp_all
      | rngUnwind =>
        cases hk
        refine ⟨rfl, Option.isSome_iff_exists.1 ?_⟩
        simp only [destroy]
        (repeat' split) <;> first | rfl | simp_all
      | rngStore => cases hk; exact ⟨rfl, _, rfl⟩
      | wav1 =>
        cases hk
        obtain ⟨rfl, -⟩ := hI.prod
        cases hc : s.loadWP j with
        | none => simp [mach, tstep, hc] at hs
        | some z => exact ⟨lat fun h => (hok.2.1 h).2.1 j rfl, loadW_can hc⟩
      | wav2 =>
        cases hk
        obtain ⟨rfl, -⟩ := hI.prod
        cases hc : s.loadRP true j with
        | none => simp [mach, tstep, hc] at hs
        | some z => exact ⟨lat fun h => (hok.2.1 h).2.1 j rfl, loadR_can hc⟩
      | emp1 =>
        cases hk
        refine ⟨lat fun h => (hok.2.1 h).2.1 j rfl, ?_⟩
        cases t with
        | zero => cases hc : s.loadWP j with
          | none => simp [mach, tstep, hc] at hs
          | some z => simp [loadEither, hc]
        | succ t => cases hc : s.loadWC false j with
          | none => simp [mach, tstep, hc] at hs
          | some z => simp [loadEither, hc]
      | emp3 =>
        cases hk
        refine ⟨lat fun h => (hok.2.1 h).2.1 j rfl, ?_⟩
        cases t with
        | zero => cases hc : s.loadWP j with
          | none => simp [mach, tstep, hc] at hs
          | some z => exact loadW_can hc
        | succ t => cases hc : s.loadWC false j with
          | none => simp [mach, tstep, hc] at hs
          | some z => exact loadW_can hc
      | emp2 =>
        cases hk
        refine ⟨lat fun h => (hok.2.1 h).2.1 j rfl, ?_⟩
        cases t with
        | zero => cases hc : s.loadRP false j with
          | none => simp [mach, tstep, hc] at hs
          | some z => exact loadR_can hc
        | succ t => cases hc : s.loadRC j with
          | none => simp [mach, tstep, hc] at hs
          | some z => exact loadR_can hc
      | one1 =>
        cases hk
        obtain ⟨rfl, -⟩ := hI.cons
        cases hc : s.loadWC true j with
        | none => simp [mach, tstep, hc] at hs
        | some z => exact ⟨lat fun h => (hok.2.1 h).2.1 j rfl, loadW_can hc⟩
      | one2 =>
        cases hk
        obtain ⟨rfl, -⟩ := hI.cons
        cases hc : s.loadRC j with
        | none => simp [mach, tstep, hc] at hs
        | some z => exact ⟨lat fun h => (hok.2.1 h).2.1 j rfl, loadR_can hc⟩
      | one3 =>
        cases hk
        refine ⟨rfl, Option.isSome_iff_exists.1 ?_⟩
        simp only [take]
        (repeat' split) <;> first | rfl | simp_all
      | one4 =>
        cases hk
        refine ⟨rfl, Option.isSome_iff_exists.1 ?_⟩
        simp only [destroy]
        (repeat' split) <;> first | rfl | simp_all
      | one5 => cases hk; exact ⟨rfl, _, rfl⟩
      | bulk1 =>
        cases hk
        obtain ⟨rfl, -⟩ := hI.cons
        cases hc : s.loadWC true j with
        | none => simp [mach, tstep, hc] at hs
        | some z => exact ⟨lat fun h => (hok.2.1 h).2.1 j rfl, loadW_can hc⟩
      | bulk2 =>
        cases hk
        obtain ⟨rfl, -⟩ := hI.cons
        cases hc : s.loadRC j with
        | none => simp [mach, tstep, hc] at hs
        | some z => exact ⟨lat fun h => (hok.2.1 h).2.1 j rfl, loadR_can hc⟩
      | bulkCopy =>
        cases hk
        refine ⟨rfl, Option.isSome_iff_exists.1 ?_⟩
        simp only [take]
        (repeat' split) <;> first | rfl | simp_all
      | bulkRead =>
        cases hk
        refine ⟨rfl, Option.isSome_iff_exists.1 ?_⟩
        simp only [take]
        (repeat' split) <;> first | rfl | simp_all
      | bulkDestroy =>
        cases hk
        refine ⟨rfl, Option.isSome_iff_exists.1 ?_⟩
        simp only [destroy]
        (repeat' split) <;> first | rfl | simp_all
      | bulkStore => cases hk; exact ⟨rfl, _, rfl⟩
      | rav1 =>
        cases hk
        obtain ⟨rfl, -⟩ := hI.cons
        cases hc : s.loadWC true j with
        | none => simp [mach, tstep, hc] at hs
        | some z => exact ⟨lat fun h => (hok.2.1 h).2.1 j rfl, loadW_can hc⟩
      | rav2 =>
        cases hk
        obtain ⟨rfl, -⟩ := hI.cons
        cases hc : s.loadRC j with
        | none => simp [mach, tstep, hc] at hs
        | some z => exact ⟨lat fun h => (hok.2.1 h).2.1 j rfl, loadR_can hc⟩
      | frt1 =>
        cases hk
        obtain ⟨rfl, -⟩ := hI.cons
        cases hc : s.loadWC true j with
        | none => simp [mach, tstep, hc] at hs
        | some z => exact ⟨lat fun h => (hok.2.1 h).2.1 j rfl, loadW_can hc⟩
      | frt2 =>
        cases hk
        obtain ⟨rfl, -⟩ := hI.cons
        cases hc : s.loadRC j with
        | none => simp [mach, tstep, hc] at hs
        | some z => exact ⟨lat fun h => (hok.2.1 h).2.1 j rfl, loadR_can hc⟩
      | frt3 =>
        cases hk
        obtain ⟨rfl, -⟩ := hI.cons
        cases hc : s.loadRC j with
        | none => simp [mach, tstep, hc] at hs
        | some z => exact ⟨lat fun h => (hok.2.1 h).2.1 j rfl, loadR_can hc⟩
      | frt4 =>
        cases hk
        refine ⟨rfl, Option.isSome_iff_exists.1 ?_⟩
        simp only [readFront]
        (repeat' split) <;> first | rfl | simp_all
      | fin => simp at hk
    | swap j =>
      cases hat with
      | emp1 =>
        cases hk
        refine ⟨?_, ?_⟩
        · cases sc
          · rfl
          · simpa [loadEither] using (hok.2.1 rfl).2.2 j rfl
        cases t with
        | zero => cases hc : s.loadRP false j with
          | none => simp [mach, tstep, hc] at hs
          | some z => simp [loadEither, hc]
        | succ t => cases hc : s.loadRC j with
          | none => simp [mach, tstep, hc] at hs
          | some z => simp [loadEither, hc]
      | _ => simp [mach, tstep] at hs
    | throw =>
      cases hat with
      | @push3 v w nx h1 h2 h3 =>
        cases hk
        exact ⟨rfl, by simp [construct, h1]⟩
      | @rngCopy start dst xs rest second total newW cov ctx h1 h2 h3 h4 h5 h6 h7 h8 =>
        cases hk
        have h9 : second = false := hok.1
        refine ⟨?_, Option.isSome_iff_exists.1 ?_⟩
        · cases h1 <;> first | rfl | exact absurd h9 (by decide)
        · simp only [construct]
          (repeat' split) <;> first | rfl | simp_all
      | one3 h1 =>
        cases hk
        refine ⟨by simp [take, h1], Option.isSome_iff_exists.1 ?_⟩
        simp only [take]
        (repeat' split) <;> first | rfl | simp_all
      | @bulkCopy copy i rem rest outs newR ctx h1 h2 h3 h4 h5 h6 h7 =>
        cases hk
        have ho : outs = [] := hok.1
        refine ⟨by simp [take, h6, ho], Option.isSome_iff_exists.1 ?_⟩
        simp only [take]
        (repeat' split) <;> first | rfl | simp_all
      | @bulkRead copy i rem rest outs newR ctx h1 h2 h3 h4 h5 h6 h7 =>
        cases hk
        have ho : outs = [] := hok.1
        refine ⟨by simp [take, h6, ho], Option.isSome_iff_exists.1 ?_⟩
        simp only [take]
        (repeat' split) <;> first | rfl | simp_all
      | _ => simp [mach, tstep] at hs
  res t s r ch y hv hs := by
    cases ch with
    | call o => simp [mach, tstep] at hs
    | go j => simp [mach, tstep] at hs; exact hs.symm
    | swap j => simp [mach, tstep] at hs
    | throw => simp [mach, tstep] at hs
    | sync =>
      exfalso
      match t with
      | 0 | 1 => simp [program] at hv
      | t + 2 => simp [mach, tstep] at hs
  err t s ch hv := by
    cases ch with
    | call o => rfl
    | go j => rfl
    | swap j => rfl
    | throw => rfl
    | sync =>
      match t with
      | 0 | 1 => simp [program] at hv
      | t + 2 => rfl

end Verif.Spsc.Code
