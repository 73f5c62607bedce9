/-!
# What an object that starts tasks holds on to

Written over `started i` (task `i` was started), `over i` (it has ended) and the list `held` of the
tasks a reference is kept to; nothing here mentions the model.
-/

namespace Aio.Spec.Held

/-- Every task that still runs is referenced. asyncio itself keeps only weak references to tasks, so
a task nobody refers to may be collected before it ends. -/
def Safe (started over : Nat → Prop) (held : List Nat) : Prop :=
  ∀ i, started i → ¬ over i → i ∈ held

/-- Nothing that is over is referenced. -/
def Clean (over : Nat → Prop) (held : List Nat) : Prop :=
  ∀ i ∈ held, ¬ over i

end Aio.Spec.Held
