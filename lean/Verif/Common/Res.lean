/-
Sequencing of outcomes.
-/
import Verif.Common.Vec

set_option autoImplicit false

namespace MQT

/-- Sequencing: undefined behaviour and exceptions propagate. -/
def Res.bind {α β : Type} : Res α → (α → Res β) → Res β
  | .ok a, f => f a
  | .throw, _ => .throw
  | .ub, _ => .ub

end MQT
