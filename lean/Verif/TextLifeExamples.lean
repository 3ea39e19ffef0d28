import Verif.Stack.TextLife
import Verif.Queue.TextLife
import Verif.Stack.TextUnsyncExamples
import Verif.Queue.TextUnsyncExamples

/-!
# Constructors and destructors as program text: concrete executions (C59)

No further code of /repo is modelled here.
-/

namespace Verif.Text
open Lin

variable {S L Ch O R : Type} {P : Program S L Ch O R} {sp : Ch → Bool} {t k : Nat} {s s' : S} {q q' : TPC S L Ch R}

theorem Moves.cons {okm : S → TPC S L Ch R → TChoice Ch O → Prop} {sw : TPC S L Ch R → TChoice Ch O → Bool} {s₁ q₁ ch e h a b}
    (hs : P.mach.step t s q ch = some (s₁, q₁, e)) (hok : okm s q ch) (hm : Moves P.mach okm sw t s₁ q₁ h s' q' a b) :
    ∃ a' b', Moves P.mach okm sw t s q (e.toList ++ h) s' q' a' b' ∧ a' + b' = a + b + 1 := by
  induction hm with
  | stay =>
    refine ⟨_, _, by simpa using Moves.step (sw := sw) .stay hok hs, ?_⟩
    split <;> rfl
  | step _ h1 h2 ih =>
    obtain ⟨a', b', h3, h4⟩ := ih
    refine ⟨_, _, by simpa using h3.step h1 h2, ?_⟩
    split <;> simp <;> omega

theorem alone_moves {al : Ch → Prop} {h} (hr : Alone P.mach (P.okAl al) t k s q h s' q') :
    ∃ a b, Moves P.mach (P.okAl al) (spurious sp) t s q h s' q' a b ∧ a + b = k := by
  induction hr with
  | nil => exact ⟨0, 0, .stay, rfl⟩
  | cons h1 h2 _ ih =>
    obtain ⟨a, b, h3, h4⟩ := ih
    obtain ⟨a', b', h5, h6⟩ := Moves.cons (okm := P.okAl al) h1 h2 h3
    exact ⟨a', b', h5, by omega⟩

/-- Runs a thread until it returns; `cs`: the accesses. -/
def Program.finish (P : Program S L Ch O R) (t : Nat) : Nat → List Ch → S → TPC S L Ch R → Option (S × R)
  | 0, _, _, _ => none
  | n + 1, cs, s, q =>
    match q with
    | .ret r => some (s, r)
    | q =>
      match P.mach.step t s q .tau, cs with
      | some (s', q', none), cs => P.finish t n cs s' q'
      | _, [] => none
      | _, c :: cs =>
        if Program.okB (fun _ _ => true) s q (.act c : TChoice Ch O) then
          match P.mach.step t s q (.act c) with
          | some (s', q', none) => P.finish t n cs s' q'
          | _ => none
        else none

theorem finish_alone {al : Ch → Prop} {n : Nat} {cs : List Ch} {r : R} (hr : P.finish t n cs s q = some (s', r)) (ha : ∀ c ∈ cs, al c) :
    ∃ k, Alone P.mach (P.okAl al) t k s q [] s' (.ret r) := by
  induction n generalizing cs s q with
  | zero => simp [Program.finish] at hr
  | succ n ih =>
    unfold Program.finish at hr
    split at hr
    · cases hr; exact ⟨0, .nil _ _⟩
    · split at hr
      · rename_i hs
        obtain ⟨k, hk⟩ := ih hr ha
        exact ⟨_, .cons hs ⟨tau_ok .., by simp⟩ hk⟩
      · cases hr
      · split at hr
        · rename_i hb
          split at hr
          · rename_i hs
            obtain ⟨k, hk⟩ := ih hr fun c hc => ha c (by simp [hc])
            exact ⟨_, .cons hs ⟨okB_spec (fun _ _ _ => trivial) hb, by rintro _ ⟨⟩; exact ha _ (by simp)⟩ hk⟩
          · cases hr
        · cases hr

/-- A call, run to its end by thread 0 -/
abbrev Program.run (P : Program S L Ch O R) (cs : List Ch) (s : S) (o : O) : Option (S × R) :=
  (P.body 0 o).bind fun y => P.finish 0 400 cs s (.run y.1 [.stm y.2])

/-- What a call executed to its end has brought about. -/
theorem Total.post {al : Ch → Prop} {o : O} {N : Nat → Nat} {Post : S → R → Prop} {cs : List Ch} {r : R} (h : Total P al sp 0 s o N Post) (ha : ∀ c ∈ cs, al c)
    (hr : P.run cs s o = some (s', r)) : Post s' r := by
  obtain ⟨l, x, h1, h2⟩ := h
  rw [Program.run, h1] at hr
  obtain ⟨k, hk⟩ := finish_alone (by simpa using hr) ha
  obtain ⟨a, b, h3, -⟩ := alone_moves (sp := sp) hk
  exact (h2 _ _ _ _ h3).2.2.1 r rfl

end Verif.Text

namespace Verif.Stack.Code.TextEx
open Lin Text WordEx

/-! ### Stack -/

def accs {K : Words} {O : Type} (k : Nat) : List (SChoice K O Nat) := List.replicate k .go

/-- Memory before construction -/
abbrev raw : Life cRep.K Nat (SSnap cRep.K) := Life.raw cRep cRep.zero 7 ⟨cRep.zero, 3⟩

set_option maxRecDepth 8000 in
/-- C59: a stack for two nodes is constructed -/
example : ∃ s, (ctorProgram cRep Nat).run (accs 10) raw 2 = some (s, true) ∧ s.freed = [] ∧ (⟨s.mem, s.x.v, s.x.ver⟩ : SSt cRep.K Nat) = (SConf.initial cRep 2).s := by
  have hr : (ctorProgram cRep Nat).run (accs 10) raw 2 = some (_, true) := rfl
  have h := (stack_text_constructor cRep_faithful (n := 2) (by decide) _ 7 _ 0).post (by simp) hr
  exact ⟨_, hr, h.1, (h.2.1 rfl).1⟩

set_option maxRecDepth 8000 in
/-- C59: there is no memory for the second node; the first one is lost -/
example : ∃ s, (ctorProgram cRep Nat).run (accs 5 ++ [.throw]) raw 2 = some (s, false) ∧ s.freed = [] ∧ s.mem.nalloc = 1 ∧ 1 < 2 := by
  have hr : (ctorProgram cRep Nat).run (accs 5 ++ [.throw]) raw 2 = some (_, false) := rfl
  have h := (stack_text_constructor cRep_faithful (n := 2) (by decide) _ 7 _ 0).post (by simp) hr
  exact ⟨_, hr, h.1, rfl, h.2.2 rfl⟩

set_option maxRecDepth 8000 in
/-- C59: the constructor returns if there is memory -/
example : ∃ s, (ctorProgram cRep Nat).run (accs 10) raw 2 = some (s, true) ∧ s.freed = [] := by
  have hr : (ctorProgram cRep Nat).run (accs 10) raw 2 = some (_, true) := rfl
  have h := (stack_text_constructor_returns cRep_faithful (n := 2) (by decide) (by decide) _ 7 _ 0).post (by simp [accs]) hr
  exact ⟨_, hr, h.2.1⟩

set_option maxRecDepth 8000 in
/-- C59: too many nodes for 16 bits -/
example : ∃ s, (ctorProgram (indexRep 70000) Nat).run (accs 1) (Life.raw (indexRep 70000) (indexRep 70000).zero 7 ⟨(indexRep 70000).zero, 3⟩) 70000 = some (s, false) ∧
    s.mem.nalloc = 0 := by
  have hr : (ctorProgram (indexRep 70000) Nat).run (accs 1) (Life.raw (indexRep 70000) (indexRep 70000).zero 7 ⟨(indexRep 70000).zero, 3⟩) 70000 = some (_, false) := rfl
  exact ⟨_, hr, ((stack_text_constructor_too_large rfl (by decide) _ 7 _ 0).post (by simp) hr).2.2⟩

set_option maxRecDepth 8000 in
/-- C59: after the execution of TextUnsyncExamples.lean, the destructor destroys 5, and gives back two of the three nodes: one was lost when a copy threw -/
example : ∃ s e, (dtorProgram cRep Nat).run (accs 9) second () = some (s, ([5], some 1)) ∧
    (poolDtorProgram cRep Nat Unit).run (accs 5) ⟨s.mem, [], ()⟩ () = some (e, ()) ∧ e.freed = [2, 1] ∧ e.freed.Nodup ∧ s.mem.data 1 = none ∧ second.mem.nalloc = 3 := by
  have hr : (dtorProgram cRep Nat).run (accs 9) second () = some (_, ([5], some 1)) := rfl
  obtain ⟨F, S, σ, -, -, -, -, h⟩ := stack_text_destructor cRep_faithful (by decide) mixed first_idle 0
  obtain ⟨-, -, -, h2⟩ := h.post (by simp) hr
  exact ⟨_, _, hr, rfl, rfl, (h2.post (cs := accs 5) (by simp) rfl).1, rfl, rfl⟩

end Verif.Stack.Code.TextEx

namespace Verif.Queue.Code.TextEx
open Lin Text WordEx
open Stack.WordEx (cRep)
open Stack.Code.TextEx (accs)

/-! ### Queue -/

/-- Memory before construction -/
abbrev raw : Life cRep.K Nat (SSnap cRep.K × SSnap cRep.K) := Life.raw cRep cRep.zero 7 (⟨cRep.zero, 3⟩, ⟨cRep.zero, 3⟩)

set_option maxRecDepth 8000 in
/-- C59: a queue for two elements is constructed; one CAS fails spuriously -/
example : ∃ s, (ctorProgram cRep Nat).run (accs 16 ++ [.spur] ++ accs 10) raw 2 = some (s, true) ∧ s.freed = [] ∧
    (⟨s.mem, s.x.1.v, s.x.1.ver, s.x.2.v, s.x.2.ver⟩ : SSt cRep.K Nat) = (SConf.initial cRep 2).s := by
  have hr : (ctorProgram cRep Nat).run (accs 16 ++ [.spur] ++ accs 10) raw 2 = some (_, true) := rfl
  have h := ((queue_text_constructor cRep_faithful (n := 2) (by decide) _ 7 _ 0).post (by simp) hr).1 rfl
  exact ⟨_, hr, h.1, h.2.1⟩

set_option maxRecDepth 8000 in
/-- C59: there is no memory for the third node: two nodes are lost -/
example : ∃ s, (ctorProgram cRep Nat).run (accs 10 ++ [.throw]) raw 2 = some (s, false) ∧ s.freed = [] ∧ s.mem.nalloc = 2 := ⟨_, rfl, rfl, rfl⟩

set_option maxRecDepth 8000 in
/-- C59: the constructor of the payload throws: one node is lost -/
example : ∃ s, (ctorProgram cRep Nat).run (accs 18 ++ [.throw] ++ accs 6) raw 2 = some (s, false) ∧ s.freed = [0, 1] ∧ s.freed.Perm (List.range 2) ∧ s.mem.nalloc = 3 := by
  have hr : (ctorProgram cRep Nat).run (accs 18 ++ [.throw] ++ accs 6) raw 2 = some (_, false) := rfl
  rcases ((queue_text_constructor cRep_faithful (n := 2) (by decide) _ 7 _ 0).post (by simp) hr).2 rfl with h | h
  · exact absurd h.1 (by decide)
  · exact ⟨_, hr, rfl, h.2, h.1⟩

set_option maxRecDepth 8000 in
/-- C59: the constructor returns if nothing throws -/
example : ∃ s, (ctorProgram cRep Nat).run (accs 21) raw 2 = some (s, true) ∧ s.freed = [] := by
  have hr : (ctorProgram cRep Nat).run (accs 21) raw 2 = some (_, true) := rfl
  have h := (queue_text_constructor_returns cRep_faithful (n := 2) (by decide) (by decide) _ 7 _ 0).post (by simp [accs]) hr
  exact ⟨_, hr, h.2.1⟩

set_option maxRecDepth 8000 in
/-- C59: too many nodes for 16 bits -/
example : ∃ s, (ctorProgram (indexRep 65536) Nat).run (accs 2) (Life.raw (indexRep 65536) (indexRep 65536).zero 7 (⟨(indexRep 65536).zero, 3⟩, ⟨(indexRep 65536).zero, 3⟩)) 65535 =
    some (s, false) ∧ s.mem.nalloc = 0 := by
  have hr : (ctorProgram (indexRep 65536) Nat).run (accs 2)
    (Life.raw (indexRep 65536) (indexRep 65536).zero 7 (⟨(indexRep 65536).zero, 3⟩, ⟨(indexRep 65536).zero, 3⟩)) 65535 = some (_, false) := rfl
  exact ⟨_, hr, ((queue_text_constructor_too_large rfl (by decide) _ 7 _ 0).post (by simp) hr).2.2⟩

set_option maxRecDepth 8000 in
/-- C59: after the execution of TextUnsyncExamples.lean, the destructor pops 6, and gives back all three nodes -/
example : ∃ s e, (dtorProgram cRep Nat).run (accs 30) second () = some (s, some 6) ∧
    (poolDtorProgram cRep Nat Unit).run (accs 7) ⟨s.mem, [], ()⟩ () = some (e, ()) ∧ e.freed = [1, 0, 2] ∧ e.freed.Nodup ∧ second.mem.nalloc = 3 := by
  have hr : (dtorProgram cRep Nat).run (accs 30) second () = some (_, some 6) := rfl
  obtain ⟨F, d, S, σ, -, -, -, -, h⟩ := queue_text_destructor cRep_faithful (by decide) mixed first_idle 0
  obtain ⟨-, -, -, h2⟩ := h.post (by simp [accs, noThrow]) hr
  exact ⟨_, _, hr, rfl, rfl, (h2.post (cs := accs 7) (by simp) rfl).1, rfl⟩

end Verif.Queue.Code.TextEx
