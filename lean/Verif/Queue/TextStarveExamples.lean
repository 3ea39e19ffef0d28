import Verif.Queue.TextStarve
import Verif.WordReps

/-! Concrete cases for C80 (queue): a fixed-size queue with two nodes besides the dummy; thread 1 has pushed an element. -/

namespace Verif.Queue.Code.StarveEx
open Lin Text

abbrev iRep : Rep := indexRep 3

theorem faithful : iRep.Faithful := indexRep_faithful (by decide)

abbrev s₀ : St Nat := (Conf.initial iRep.cfg 2).s

abbrev m₀ : Nat := s₀.heap.pool.ptr.getD 0
abbrev y₀ : Nat := s₀.tail.ptr.getD 0

abbrev s₁ : St Nat := afterLink iRep.cfg (afterConstr iRep.cfg s₀ m₀ 7) m₀ y₀

theorem prefix_watched : Watched (mach Nat iRep.cfg) (okPlain iRep.cfg) 0 (Conf.initial iRep.cfg 2) [.inv 1 (.push false 7), .res 1 (.pushed true)]
    ⟨s₁, upd (Conf.initial iRep.cfg 2).pc 1 .idle⟩ 0 :=
  .by_other (C := Conf.initial iRep.cfg 2) (by decide)
    ((constr_plain (s := s₀) (m := m₀) false 7 rfl rfl).trans (link_plain (m := m₀) (y := y₀) rfl (by decide))) rfl rfl

theorem settled : Settled s₁ := ⟨y₀, m₀, rfl, rfl, by decide, by decide⟩

/-- `pop` -/
example (N : Nat) : ∃ h' C' k, N ≤ k ∧ Watched (program iRep Nat).mach (okWith (fun _ _ => True) Plain) 0
    ⟨(SConf.initial iRep 2 : SConf iRep.K Nat).s, fun _ => .idle⟩ ([.inv 1 (.push false 7), .res 1 (.pushed true)] ++ .inv 0 .pop :: h') C' k ∧ By 1 h' :=
  queue_text_not_wait_free faithful rfl (by decide) (by decide) prefix_watched (by decide) rfl rfl settled .pop trivial N

/-- `push`: the second node is free -/
example (N : Nat) : ∃ h' C' k, N ≤ k ∧ Watched (program iRep Nat).mach (okWith (fun _ _ => True) Plain) 0
    ⟨(SConf.initial iRep 2 : SConf iRep.K Nat).s, fun _ => .idle⟩ ([.inv 1 (.push false 7), .res 1 (.pushed true)] ++ .inv 0 (.push true 5) :: h') C' k ∧ By 1 h' :=
  queue_text_not_wait_free faithful rfl (by decide) (by decide) prefix_watched (by decide) rfl rfl settled (.push true 5) (.inl (by decide)) N

end Verif.Queue.Code.StarveEx
