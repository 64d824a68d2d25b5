/-
Removing operations by their type and number of qubits.

Source: `src/circuit_optimizer/CircuitOptimizer.cpp` 48-87 (`removeIdentities`, `removeOperation`),
`include/mqt-core/ir/operations/Operation.hpp` 71-73 (`getNqubits`).
-/
import Verif.Opt.Simple

set_option autoImplicit false

namespace MQT.Opt

open MQT.IR

variable {P : Type}

/-! ### Model -/

/-- The test for an operation (CircuitOptimizer.cpp 59-60, 66-67): its type is listed, and it has as many qubits as demanded; zero
demands nothing. -/
def hit (T : List OpType) (n : ℕ) (o : Op P) : Bool := decide (o.type ∈ T) && (decide (n = 0) || decide (o.usedQ.card = n))

/-- What becomes of an operation of the circuit (CircuitOptimizer.cpp 58-86). -/
def removeOp1 (T : List OpType) (n : ℕ) (o : Op P) : List (Op P) :=
  if hit T n o then []
  else match o with
    | .compound ops cu => regroup cu (ops.filter fun o => !hit T n o)
    | o => [o]

/-- `removeOperation` (CircuitOptimizer.cpp 53-87). -/
def removeOperation (T : List OpType) (n : ℕ) (l : List (Op P)) : List (Op P) := l.flatMap (removeOp1 T n)

/-! ### Lemmas -/

/-- No compound operation. -/
def isLeaf : Op P → Bool
  | .compound _ _ => false
  | _ => true

/-- The parts of the compound operations are not compound. -/
def shallow : Op P → Bool
  | .compound ops _ => ops.all isLeaf
  | _ => true

theorem elems_leaf {o : Op P} (h : isLeaf o = true) : Op.elems o = [o] := by
  cases o <;> first | rfl | cases h

theorem elemsL_leaves {l : List (Op P)} (h : ∀ o ∈ l, isLeaf o = true) : elemsL l = l := by
  induction l with
  | nil => rfl
  | cons o l ih =>
    rw [elemsL, elems_leaf (h o (by simp)), ih fun o ho => h o (by simp [ho])]
    rfl

end MQT.Opt
