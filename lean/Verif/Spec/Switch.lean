import Verif.Model.Switch
/-!
# Vocabulary for the claims about switch_latest

The rest is shared with merge_inner, see `Spec/Merge.lean`.
-/

namespace Aio.Switch
variable {ω : Type}

/-- The worker has nothing to do: its mailbox is empty, or it has ended. -/
def Settled (s : State ω) : Prop := s.pc = .halted ∨ (s.pc = .waiting ∧ s.inbox = [])

end Aio.Switch
