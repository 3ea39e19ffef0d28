import Verif.Stack.TextStarve
import Verif.WordReps

/-! Concrete cases for C80 (stack): a fixed-size stack with two nodes; thread 1 has pushed an element. -/

namespace Verif.Stack.Code.StarveEx
open Lin Text

abbrev iRep : Rep := indexRep 2

theorem faithful : iRep.Faithful := indexRep_faithful (by decide)

theorem prefix_watched : Watched (mach Nat iRep.cfg) (okPlain iRep.cfg) 0 (Conf.initial 2) [.inv 1 (.push false 7), .res 1 (.pushed true)]
    ⟨afterPush iRep.cfg (Conf.initial 2).s 1 7, upd (Conf.initial 2).pc 1 .idle⟩ 0 :=
  .by_other (C := Conf.initial 2) (by decide) (push_plain (s := (Conf.initial 2).s) 7 rfl rfl) rfl rfl

/-- `pop` -/
example (N : Nat) : ∃ h' C' k, N ≤ k ∧ Watched (program iRep Nat).mach (okWith (fun _ o => ∀ b, o ≠ .pushRange b []) Plain) 0
    ⟨(SConf.initial iRep 2 : SConf iRep.K Nat).s, fun _ => .idle⟩ ([.inv 1 (.push false 7), .res 1 (.pushed true)] ++ .inv 0 (.pop false) :: h') C' k ∧ By 1 h' :=
  stack_text_not_wait_free faithful rfl (by decide) (by decide) prefix_watched (by decide) rfl rfl (by simp [afterPush]) (.pop false) trivial N

/-- `push`: the second node is free -/
example (N : Nat) : ∃ h' C' k, N ≤ k ∧ Watched (program iRep Nat).mach (okWith (fun _ o => ∀ b, o ≠ .pushRange b []) Plain) 0
    ⟨(SConf.initial iRep 2 : SConf iRep.K Nat).s, fun _ => .idle⟩ ([.inv 1 (.push false 7), .res 1 (.pushed true)] ++ .inv 0 (.push true 5) :: h') C' k ∧ By 1 h' :=
  stack_text_not_wait_free faithful rfl (by decide) (by decide) prefix_watched (by decide) rfl rfl (by simp [afterPush]) (.push true 5) (.inl (by decide)) N

end Verif.Stack.Code.StarveEx
