import Verif.Heap

/-!
# Views (model of C++ release/acquire memory)

The memory of an atomic object is the list of all values ever written to it, in modification order. A thread
has a *view*: how much of the list of every atomic object it must be aware of (a load may return any value
that is not older), and which steps of other threads happen before its next step (a vector clock). Every
written value ("message") carries the view of the writer at the time of writing. A load or
read-modify-write with acquire semantics merges the view of the message it reads into the view of its
thread, i.e. establishes *synchronizes-with*; a relaxed load does not.

This is the standard operational account of the release/acquire fragment of the C++ memory model without
out-of-thin-air values (`sb ∪ rf` acyclic). `seq_cst` accesses are treated as acquire/release accesses,
which allows more executions than the standard does.
-/

namespace Verif
open Lin

/-- A view over the atomic objects `L`: the oldest message of each object that may still be read, and for
every thread the number of its steps that happen before. -/
structure View (L : Type) where
  seen : L → Nat
  vc : Nat → Nat

/-- A value written to an atomic object: the tagged handle with its ghost version, and the view released by
the write. -/
structure Msg (L : Type) where
  val : Snap
  view : View L

/-- Memory orders of loads. -/
inductive Order where
  | relaxed
  | consume
  | acquire

variable {L : Type}

namespace View

/-- The empty view. -/
def bot : View L := ⟨fun _ => 0, fun _ => 0⟩

/-- Merge of two views. -/
def join (a b : View L) : View L := ⟨fun l => max (a.seen l) (b.seen l), fun u => max (a.vc u) (b.vc u)⟩

/-- The next step of thread `t`. -/
def tick (v : View L) (t : Nat) : View L := { v with vc := upd v.vc t (v.vc t + 1) }

/-- Message `i` of object `l` has been read or written. -/
def bump [DecidableEq L] (v : View L) (l : L) (i : Nat) : View L :=
  { v with seen := upd v.seen l (max (v.seen l) i) }

/-- The accesses `a`, pairs of a thread and the number of its step, all happen before. -/
def knows (v : View L) (a : List (Nat × Nat)) : Bool := a.all fun x => x.2 ≤ v.vc x.1

/-- `a` is contained in `b`. -/
def Le (a b : View L) : Prop := (∀ l, a.seen l ≤ b.seen l) ∧ ∀ u, a.vc u ≤ b.vc u

theorem Le.refl (a : View L) : Le a a := ⟨fun _ => Nat.le_refl _, fun _ => Nat.le_refl _⟩

theorem Le.trans {a b c : View L} (h1 : Le a b) (h2 : Le b c) : Le a c :=
  ⟨fun l => Nat.le_trans (h1.1 l) (h2.1 l), fun u => Nat.le_trans (h1.2 u) (h2.2 u)⟩

theorem le_join_left (a b : View L) : Le a (a.join b) := ⟨fun _ => Nat.le_max_left .., fun _ => Nat.le_max_left ..⟩

theorem le_join_right (a b : View L) : Le b (a.join b) :=
  ⟨fun _ => Nat.le_max_right .., fun _ => Nat.le_max_right ..⟩

theorem le_tick (a : View L) (t : Nat) : Le a (a.tick t) := by
  refine ⟨fun _ => Nat.le_refl _, fun u => ?_⟩
  simp only [tick, upd_apply]; split <;> simp_all

theorem le_bump [DecidableEq L] (a : View L) (l : L) (i : Nat) : Le a (a.bump l i) := by
  refine ⟨fun l' => ?_, fun _ => Nat.le_refl _⟩
  simp only [bump, upd_apply]; split
  · subst_vars; exact Nat.le_max_left ..
  · exact Nat.le_refl _

theorem knows_iff {v : View L} {a : List (Nat × Nat)} : v.knows a = true ↔ ∀ x ∈ a, x.2 ≤ v.vc x.1 := by
  simp [knows]

theorem knows.mono {v w : View L} {a} (h : v.knows a = true) (hle : Le v w) : w.knows a = true :=
  knows_iff.2 fun x hx => Nat.le_trans (knows_iff.1 h x hx) (hle.2 _)

@[simp] theorem knows_nil (v : View L) : v.knows [] = true := rfl

theorem tick_vc_self (v : View L) (t : Nat) : (v.tick t).vc t = v.vc t + 1 := by simp [tick]

end View
end Verif
