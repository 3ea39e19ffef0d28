import Verif.After
import Verif.NotLin
import Verif.Stack.WordProps
import Verif.Stack.WeakExamples

/-!
# Stack on stored words: the three representations, concrete executions, and what goes wrong without the hypotheses (C51)

No further code of /repo is modelled here.
-/

namespace Verif.Stack
open Lin

variable {α : Type} {n : Nat} {h : History (Op α) (Ret α)}

/-- **C51.** `fixed_sized<true>` / `capacity<N>`, at most 65535 nodes. -/
theorem stack_linearizable_index {count : Nat} (hc : count ≤ 65535) {C} (hx : WordExec (indexRep count) count h C) :
    Linearizable (spec α true) h :=
  stack_words_linearizable (indexRep_faithful hc) (Nat.le_refl _) hx

/-- **C51.** Compressed pointers: nodes at different addresses below `2^48`, none at null. -/
theorem stack_linearizable_compressed {addr : Nat → BitVec 64} {nodeAt : BitVec 64 → Nat} {limit : Nat}
    (h48 : ∀ n < limit, Fits (addr n)) (h0 : ∀ n < limit, addr n ≠ 0#64) (hinv : ∀ n < limit, nodeAt (addr n) = n)
    (hn : n ≤ limit) {C} (hx : WordExec (compressedRep addr nodeAt limit) n h C) : Linearizable (spec α false) h :=
  stack_words_linearizable (compressedRep_faithful h48 h0 hinv) hn hx

/-- **C51.** Pointer and tag side by side: nodes at different addresses, none at null. -/
theorem stack_linearizable_dcas {addr : Nat → BitVec 64} {nodeAt : BitVec 64 → Nat} {limit : Nat}
    (h0 : ∀ n < limit, addr n ≠ 0#64) (hinv : ∀ n < limit, nodeAt (addr n) = n)
    (hn : n ≤ limit) {C} (hx : WordExec (dcasRep addr nodeAt limit) n h C) : Linearizable (spec α false) h :=
  stack_words_linearizable (dcasRep_faithful h0 hinv) hn hx

namespace WordEx

/-- `sfresh`, computed. -/
def freshB (R : Rep) (s : SSt R.K Nat) : SPC R.K Nat → Bool
  | .alloc _ _ (.cas o _) => decide (s.mem.poolVer < o.ver + R.M)
  | .pcas _ o _ => decide (s.tosVer < o.ver + R.M)
  | .ccas _ _ o => decide (s.tosVer < o.ver + R.M)
  | _ => true

def okB (R : Rep) (s : SSt R.K Nat) (p : SPC R.K Nat) (ch : SChoice R.K (Op Nat) Nat) : Bool :=
  freshB R s p && match ch with
    | .call (.pushRange _ []) => false
    | _ => true

theorem okB_spec (R : Rep) (s : SSt R.K Nat) (p ch) (h : okB R s p ch = true) : sokFresh R s p ch := by
  simp only [okB, Bool.and_eq_true] at h
  refine ⟨?_, ?_⟩
  · obtain ⟨h, -⟩ := h
    cases p with
    | alloc b k a => cases a <;> simp_all [freshB, sfresh, saFresh]
    | pcas | ccas => simpa [freshB, sfresh] using h
    | _ => trivial
  · rintro b rfl
    simp at h

theorem exec_of {R : Rep} {n : Nat} {sched h} (ht : ((smach Nat R).runOk (okB R) (SConf.initial R n) [] sched).map (·.2) = some h) :
    ∃ C, WordExec R n h C := ⟨_, Mach.after_steps (okB_spec R) ht⟩

section
variable {K : Words}

/-- `k` ordinary steps of thread `t`. -/
def go (t k : Nat) : List (Nat × SChoice K (Op Nat) Nat) := List.replicate k (t, .go)

/-- Thread `t` calls `o` and makes `k` steps. -/
def call (t : Nat) (o : Op Nat) (k : Nat) : List (Nat × SChoice K (Op Nat) Nat) := (t, .call o) :: go t k

/-- Thread 1 pops, has loaded `tos`, and is overtaken by a pop and a push of thread 0 (which reuses the node); it reads the garbage `x`
as link of its node, but the tag has changed and its compare-exchange fails; then it pops what thread 0 has pushed. -/
def sched (x : K.H) : List (Nat × SChoice K (Op Nat) Nat) :=
  call 0 (.push true 5) 8 ++ call 1 (.pop false) 1 ++ call 0 (.pop false) 9 ++ call 0 (.push true 6) 8 ++ (1, .racy x) :: go 1 9

def hist : History (Op Nat) (Ret Nat) :=
  [.inv 0 (.push true 5), .res 0 (.pushed true), .inv 1 (.pop false), .inv 0 (.pop false), .res 0 (.popped (some 5)),
   .inv 0 (.push true 6), .res 0 (.pushed true), .res 1 (.popped (some 6))]

end

/-- Node `n` at address `16 * (n + 1)`. -/
def addr (n : Nat) : BitVec 64 := BitVec.ofNat 64 (16 * (n + 1))
def nodeAt (p : BitVec 64) : Nat := p.toNat / 16 - 1

theorem addr_fits (n : Nat) (hn : n < 1000) : Fits (addr n) := by simp only [Fits, addr, BitVec.toNat_ofNat]; omega
theorem addr_nonnull (n : Nat) (hn : n < 1000) : addr n ≠ 0#64 := by
  intro h
  have := congrArg BitVec.toNat h
  simp only [addr, BitVec.toNat_ofNat] at this
  omega
theorem nodeAt_addr (n : Nat) (hn : n < 1000) : nodeAt (addr n) = n := by
  simp only [nodeAt, addr, BitVec.toNat_ofNat]; omega

abbrev cRep : Rep := compressedRep addr nodeAt 1000
abbrev dRep : Rep := dcasRep addr nodeAt 1000

/-- C51: the hypotheses of the theorems about faithful representations hold for all three -/
example : (indexRep 65535).Faithful := indexRep_faithful (Nat.le_refl _)
example : cRep.Faithful := compressedRep_faithful addr_fits addr_nonnull nodeAt_addr
example : dRep.Faithful := dcasRep_faithful addr_nonnull nodeAt_addr

set_option maxRecDepth 2000 in
/-- C51: the same history on all three representations, with a node that is popped and pushed again below a pending pop -/
theorem index_exec : ∃ C, WordExec (indexRep 1) 1 hist C := exec_of (sched := sched 77#16) rfl
set_option maxRecDepth 2000 in
theorem compressed_exec : ∃ C, WordExec cRep 1 hist C := exec_of (sched := sched 0xfff0fff0#64) rfl
set_option maxRecDepth 2000 in
theorem dcas_exec : ∃ C, WordExec dRep 1 hist C := exec_of (sched := sched 0xfff0fff0fff0fff0#64) rfl

/-- The configuration at the end of `hist`, compressed pointers. -/
def cEnd : SConf cRep.K Nat := (smach Nat cRep).after (okB cRep) (SConf.initial cRep 1) (sched 0xfff0fff0#64)

set_option maxRecDepth 2000 in
theorem cEnd_exec : WordExec cRep 1 hist cEnd := Mach.after_steps (okB_spec cRep) rfl

set_option maxRecDepth 2000 in
theorem cEnd_idle (t : Nat) : cEnd.pc t = .idle := by
  match t with
  | 0 | 1 => rfl
  | _ + 2 => rfl

/-- C51: conservation and the form of the links for this execution -/
example : ∃ vs, HoldsW cRep cEnd.s vs ∧ (delivered hist ++ vs).Perm (accepted hist) :=
  stack_words_conservation (compressedRep_faithful addr_fits addr_nonnull nodeAt_addr) (by decide) cEnd_exec cEnd_idle
    (by simp [hist])

set_option maxRecDepth 2000 in
example : cEnd.s.mem.next 0 = extractPtr (cEnd.s.mem.next 0) :=
  stack_link_plain addr_fits addr_nonnull nodeAt_addr (by decide) cEnd_exec (show (0 : Nat) < 1 by decide)

/-- Nodes at multiples of `2^48`: different addresses, none at null. -/
def highAddr (n : Nat) : BitVec 64 := BitVec.ofNat 64 (2 ^ 48 * (n + 1))
def highNodeAt (p : BitVec 64) : Nat := p.toNat / 2 ^ 48 - 1

theorem highAddr_nonnull (n : Nat) (hn : n < 1000) : highAddr n ≠ 0#64 := by
  intro h
  have := congrArg BitVec.toNat h
  simp only [highAddr, BitVec.toNat_ofNat] at this
  omega
theorem highNodeAt_addr (n : Nat) (hn : n < 1000) : highNodeAt (highAddr n) = n := by
  simp only [highNodeAt, highAddr, BitVec.toNat_ofNat]; omega

def highHist : History (Op Nat) (Ret Nat) :=
  [.inv 0 (.push false 5), .res 0 (.pushed true), .inv 0 (.pop false), .res 0 (.popped none)]

set_option maxRecDepth 2000 in
/-- **C51 (the bound of 48 bits is needed).** With compressed pointers and nodes at addresses of more than 48 bits a push returns true
and the pop after it finds nothing. -/
theorem stack_high_addresses_not_linearizable : ∃ C, WordExec (compressedRep highAddr highNodeAt 1000) 0 highHist C ∧
    ¬ Linearizable (spec Nat false) highHist := by
  obtain ⟨C, hC⟩ := exec_of (R := compressedRep highAddr highNodeAt 1000) (n := 0) (h := highHist)
    (sched := call 0 (.push false 5) 7 ++ call 0 (.pop false) 3) rfl
  exact ⟨C, hC, not_linearizable (WEx.specNext false) (WEx.specNext_spec false) (by rfl)⟩

/-- With pointer and tag side by side the same addresses do no harm: no execution has this history. -/
theorem stack_high_addresses_dcas : ¬ ∃ C, WordExec (dcasRep highAddr highNodeAt 1000) 0 highHist C := by
  rintro ⟨C, hC⟩
  exact not_linearizable (WEx.specNext false) (WEx.specNext_spec false) (by rfl)
    (stack_linearizable_dcas highAddr_nonnull highNodeAt_addr (Nat.zero_le _) hC)

end WordEx
end Verif.Stack
