import Verif.After
import Verif.NotLin
import Verif.Queue.WordProps
import Verif.Queue.WeakExamples
import Verif.Stack.WordExamples

/-!
# Queue on stored words: the three representations, concrete executions, and what goes wrong without the hypotheses (C51)

No further code of /repo is modelled here.
-/

namespace Verif.Queue
open Lin

variable {α : Type} {n : Nat} {h : History (Op α) (Ret α)}

/-- **C51.** `fixed_sized<true>` / `capacity<N>`: `n` elements and the dummy, at most 65535 nodes. -/
theorem queue_linearizable_index (hc : n + 1 ≤ 65535) {C} (hx : WordExec (indexRep (n + 1)) n h C) : Linearizable (spec α true) h :=
  queue_words_linearizable (indexRep_faithful hc) (Nat.le_refl _) hx

/-- **C51.** Compressed pointers: nodes at different addresses below `2^48`, none at null. -/
theorem queue_linearizable_compressed {addr : Nat → BitVec 64} {nodeAt : BitVec 64 → Nat} {limit : Nat}
    (h48 : ∀ n < limit, Fits (addr n)) (h0 : ∀ n < limit, addr n ≠ 0#64) (hinv : ∀ n < limit, nodeAt (addr n) = n)
    (hn : n + 1 ≤ limit) {C} (hx : WordExec (compressedRep addr nodeAt limit) n h C) : Linearizable (spec α false) h :=
  queue_words_linearizable (compressedRep_faithful h48 h0 hinv) hn hx

/-- **C51.** Pointer and tag side by side: nodes at different addresses, none at null. -/
theorem queue_linearizable_dcas {addr : Nat → BitVec 64} {nodeAt : BitVec 64 → Nat} {limit : Nat}
    (h0 : ∀ n < limit, addr n ≠ 0#64) (hinv : ∀ n < limit, nodeAt (addr n) = n)
    (hn : n + 1 ≤ limit) {C} (hx : WordExec (dcasRep addr nodeAt limit) n h C) : Linearizable (spec α false) h :=
  queue_words_linearizable (dcasRep_faithful h0 hinv) hn hx

namespace WordEx

/-- `sfresh`, computed. -/
def freshB (R : Rep) (s : SSt R.K Nat) : SPC R.K Nat → Bool
  | .alloc _ _ (.cas o _) => decide (s.mem.poolVer < o.ver + R.M)
  | .pCheck _ T _ => decide (s.tailVer < T.ver + R.M)
  | .pCas _ T N => match R.K.node (R.K.ptr T.v) with
    | none => true
    | some x => decide (s.mem.nver x < N.ver + R.M)
  | .swing _ T _ => decide (s.tailVer < T.ver + R.M)
  | .cCheck H _ _ => decide (s.headVer < H.ver + R.M)
  | .cCas H _ _ => decide (s.headVer < H.ver + R.M)
  | _ => true

def okB (R : Rep) (s : SSt R.K Nat) (p : SPC R.K Nat) (_ : SChoice R.K (Op Nat) Nat) : Bool := freshB R s p

theorem okB_spec (R : Rep) (s : SSt R.K Nat) (p ch) (h : okB R s p ch = true) : sokFresh R s p ch := by
  simp only [okB] at h
  show sfresh R s p
  cases p with
  | alloc b k a => cases a <;> simp_all [freshB, sfresh, saFresh]
  | pCas n T N =>
    intro x hx
    simpa [freshB, hx] using h
  | pCheck | swing | cCheck | cCas => simpa [freshB, sfresh] using h
  | _ => trivial

theorem exec_of {R : Rep} {n : Nat} {sched h} (ht : ((smach Nat R).runOk (okB R) (SConf.initial R n) [] sched).map (·.2) = some h) :
    ∃ C, WordExec R n h C := ⟨_, Mach.after_steps (okB_spec R) ht⟩

section
variable {K : Words}

/-- `k` ordinary steps of thread `t`. -/
def go (t k : Nat) : List (Nat × SChoice K (Op Nat) Nat) := List.replicate k (t, .go)

/-- Thread `t` calls `o` and makes `k` steps. -/
def call (t : Nat) (o : Op Nat) (k : Nat) : List (Nat × SChoice K (Op Nat) Nat) := (t, .call o) :: go t k

/-- Thread 1 pops, has loaded `head_` and `tail_`, and is overtaken by a pop of thread 0; it reads the garbage `x` as link of its node,
but the tag of `head_` has changed; then it pops what thread 0 has pushed meanwhile (in the node that was freed). -/
def sched (x : K.W) : List (Nat × SChoice K (Op Nat) Nat) :=
  call 0 (.push true 5) 12 ++ call 1 .pop 2 ++ call 0 .pop 11 ++ [(1, .torn x), (1, .go)] ++ call 0 (.push true 6) 12 ++ go 1 11

def hist : History (Op Nat) (Ret Nat) :=
  [.inv 0 (.push true 5), .res 0 (.pushed true), .inv 1 .pop, .inv 0 .pop, .res 0 (.popped (some 5)),
   .inv 0 (.push true 6), .res 0 (.pushed true), .res 1 (.popped (some 6))]

end

open Stack.WordEx (addr nodeAt addr_fits addr_nonnull nodeAt_addr highAddr highNodeAt highAddr_nonnull highNodeAt_addr cRep dRep)

set_option maxRecDepth 2000 in
/-- C51: the same history on all three representations -/
theorem index_exec : ∃ C, WordExec (indexRep 2) 1 hist C :=
  exec_of (R := indexRep 2) (sched := sched (K := indexWords 2) (⟨77#16, 99#16⟩ : Pair 16 16)) rfl
set_option maxRecDepth 2000 in
theorem compressed_exec : ∃ C, WordExec cRep 1 hist C := exec_of (sched := sched 0xfff0fff0#64) rfl
set_option maxRecDepth 2000 in
theorem dcas_exec : ∃ C, WordExec dRep 1 hist C :=
  exec_of (R := dRep) (sched := sched (K := dcasWords addr nodeAt) (⟨0xfff0fff0fff0fff0#64, 3#64⟩ : Pair 64 64)) rfl

/-- The configuration at the end of `hist`, compressed pointers. -/
def cEnd : SConf cRep.K Nat := (smach Nat cRep).after (okB cRep) (SConf.initial cRep 1) (sched 0xfff0fff0#64)

set_option maxRecDepth 2000 in
theorem cEnd_exec : WordExec cRep 1 hist cEnd := Mach.after_steps (okB_spec cRep) rfl

set_option maxRecDepth 2000 in
theorem cEnd_idle (t : Nat) : cEnd.pc t = .idle := by
  match t with
  | 0 | 1 => rfl
  | _ + 2 => rfl

/-- C51: conservation for this execution -/
example : ∃ vs, HoldsW cRep cEnd.s vs ∧ (delivered hist ++ vs).Perm (accepted hist) :=
  queue_words_conservation (compressedRep_faithful addr_fits addr_nonnull nodeAt_addr) (by decide) cEnd_exec cEnd_idle

def highHist : History (Op Nat) (Ret Nat) := [.inv 0 (.push false 5), .res 0 (.pushed true), .inv 0 (.push false 6)]

/-- The dummy at an ordinary address, the other nodes at multiples of `2^48`: different addresses, none at null. -/
def mixAddr (n : Nat) : BitVec 64 := if n = 0 then 64#64 else highAddr n
def mixNodeAt (p : BitVec 64) : Nat := if p = 64#64 then 0 else highNodeAt p

def highEnd : SConf (compressedRep mixAddr mixNodeAt 1000).K Nat :=
  (smach Nat (compressedRep mixAddr mixNodeAt 1000)).after (okB _) (SConf.initial _ 0) (call 0 (.push false 5) 11 ++ call 0 (.push false 6) 7)

set_option maxRecDepth 2000 in
/-- **C51 (the bound of 48 bits is needed).** With compressed pointers and a node at an address of more than 48 bits, `push` stores a null
pointer in `tail_`; the next `push` dereferences it. -/
theorem queue_high_addresses_undefined_behaviour :
    WordExec (compressedRep mixAddr mixNodeAt 1000) 0 highHist highEnd ∧ highEnd.pc 0 = .err :=
  ⟨Mach.after_steps (okB_spec _) rfl, rfl⟩

theorem mixAddr_nonnull (n : Nat) (hn : n < 1000) : mixAddr n ≠ 0#64 := by
  unfold mixAddr
  split
  · decide
  · exact highAddr_nonnull n hn

theorem mixNodeAt_addr (n : Nat) (hn : n < 1000) : mixNodeAt (mixAddr n) = n := by
  unfold mixAddr mixNodeAt
  by_cases h0 : n = 0
  · simp [h0]
  · rw [if_neg h0, if_neg, highNodeAt_addr n hn]
    intro h
    have := congrArg BitVec.toNat h
    simp only [highAddr, BitVec.toNat_ofNat] at this
    omega

/-- With pointer and tag side by side the same addresses do no harm. -/
theorem queue_high_addresses_dcas {h : History (Op Nat) (Ret Nat)} {C} (hx : WordExec (dcasRep mixAddr mixNodeAt 1000) 0 h C) (t : Nat) :
    C.pc t ≠ .err :=
  queue_words_no_undefined_behaviour (dcasRep_faithful mixAddr_nonnull mixNodeAt_addr) (by decide) hx t

end WordEx
end Verif.Queue
