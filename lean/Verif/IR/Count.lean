/-
Counting the operations of a circuit, the last operation on its qubits, and the circuit of a compound operation.

Models `getNindividualOps`, `getNsingleQubitOps`, `isLastOperationOnQubit` and `fromCompoundOperation`
(`src/ir/QuantumComputation.cpp` 198-211, 213-236, 901-928, 1257-1287), with `isUnitary`, `isControlled`, `getTargets`, `getControls`,
`actsOn` and `getUsedQubits` of the operations (`include/mqt-core/ir/operations/Operation.hpp` 131, 156, 171-178,
`ClassicControlledOperation.hpp` 78-106, `NonUnitaryOperation.hpp` 44, `src/ir/operations/CompoundOperation.cpp` 169-172, 191-198,
`src/ir/operations/Operation.cpp` 198-212).

Sets of qubits are lists; numbers are without bounds.
-/
import Mathlib.Data.List.Basic
import Mathlib.Tactic.Linarith

set_option autoImplicit false

namespace MQT.IR.Count

/-! ### Model -/

/-- Gates (whether barriers, targets and controls), resets, measurements (qubits and bits), classically controlled operations (with the bits
that control them), compound operations (with the controls added to them as a whole). -/
inductive Op
  | gate (barrier : Bool) (ts cs : List ℕ)
  | reset (ts : List ℕ)
  | measure (ts bs : List ℕ)
  | classic (o : Op) (bs : List ℕ)
  | compound (cs : List ℕ) (os : List Op)

/-- `isUnitary`; that of compound operations is inherited. -/
def Op.isUnitary : Op → Bool
  | .gate _ _ _ => true
  | .reset _ => false
  | .measure _ _ => false
  | .classic _ _ => false
  | .compound _ _ => true

/-- `getTargets`. -/
def Op.targets : Op → List ℕ
  | .gate _ ts _ => ts
  | .reset ts => ts
  | .measure ts _ => ts
  | .classic o _ => o.targets
  | .compound _ _ => []

/-- `getControls`. -/
def Op.controls : Op → List ℕ
  | .gate _ _ cs => cs
  | .reset _ => []
  | .measure _ _ => []
  | .classic o _ => o.controls
  | .compound cs _ => cs

/-- `getNindividualOps` (QuantumComputation.cpp 198-211). -/
def individual : List Op → ℕ
  | [] => 0
  | .compound _ os :: l => os.length + individual l
  | _ :: l => 1 + individual l

/-- The condition on a single operation. -/
def Op.single (o : Op) : Bool := o.isUnitary && o.controls.isEmpty && o.targets.length = 1

/-- `getNsingleQubitOps` (QuantumComputation.cpp 213-236).  The member `controls` that `isControlled` reads is that of `getControls` but for
classically controlled operations, which are not unitary. -/
def singleOps : List Op → ℕ
  | [] => 0
  | .compound _ os :: l => os.countP Op.single + singleOps l
  | o :: l => (if o.single then 1 else 0) + singleOps l

mutual
/-- `actsOn`. -/
def actsOn (q : ℕ) : Op → Bool
  | .gate _ ts cs => ts.contains q || cs.contains q
  | .reset ts => ts.contains q
  | .measure ts _ => ts.contains q
  | .classic o _ => actsOn q o
  | .compound _ os => anyActsOn q os
def anyActsOn (q : ℕ) : List Op → Bool
  | [] => false
  | o :: os => actsOn q o || anyActsOn q os
end

/-- `isLastOperationOnQubit` (QuantumComputation.cpp 901-928): the operations from the given one on. -/
def isLast (n : ℕ) : List Op → Bool
  | [] => true
  | o :: l => l.all fun o' => (List.range n).all fun q => !(actsOn q o && actsOn q o')

mutual
/-- `getUsedQubits`. -/
def used : Op → List ℕ
  | .compound _ os => allUsed os
  | .gate _ ts cs => ts ++ cs
  | .reset ts => ts
  | .measure ts _ => ts
  | .classic o _ => o.targets ++ o.controls
def allUsed : List Op → List ℕ
  | [] => []
  | o :: os => used o ++ allUsed os
end

/-- The bits of a measurement, as `fromCompoundOperation` looks for them. -/
def classics : Op → List ℕ
  | .measure _ bs => bs
  | _ => []

/-- `fromCompoundOperation` (QuantumComputation.cpp 1257-1287): the numbers of qubits and bits of the circuit; its operations are the given
ones. -/
def fromCompound (os : List Op) : ℕ × ℕ :=
  let m := os.foldl (fun m o => ((used o).foldl max m.1, (classics o).foldl max m.2)) (0, 0)
  (m.1 + 1, m.2 + 1)

/-! ### Specification -/

mutual
/-- The operations with compound operations taken apart, at every depth. -/
def flat : Op → List Op
  | .compound _ os => allFlat os
  | .gate b ts cs => [.gate b ts cs]
  | .reset ts => [.reset ts]
  | .measure ts bs => [.measure ts bs]
  | .classic o bs => [.classic o bs]
def allFlat : List Op → List Op
  | [] => []
  | o :: os => flat o ++ allFlat os
end

mutual
/-- All qubits of an operation. -/
def qubits : Op → List ℕ
  | .gate _ ts cs => ts ++ cs
  | .reset ts => ts
  | .measure ts _ => ts
  | .classic o _ => qubits o
  | .compound _ os => allQubits os
def allQubits : List Op → List ℕ
  | [] => []
  | o :: os => qubits o ++ allQubits os
end

mutual
/-- All bits of an operation. -/
def bits : Op → List ℕ
  | .gate _ _ _ => []
  | .reset _ => []
  | .measure _ bs => bs
  | .classic o bs => bits o ++ bs
  | .compound _ os => allBits os
def allBits : List Op → List ℕ
  | [] => []
  | o :: os => bits o ++ allBits os
end

/-- A gate without controls and with one target that is not a barrier. -/
def isSingle : Op → Bool
  | .gate b ts cs => !b && cs.isEmpty && ts.length = 1
  | _ => false

def Op.isCompound : Op → Bool
  | .compound _ _ => true
  | _ => false

/-- A barrier on one qubit. -/
def isBarrier1 : Op → Bool
  | .gate b ts cs => b && cs.isEmpty && ts.length = 1
  | _ => false

/-- No compound operation within a compound operation. -/
def notNested : Op → Prop
  | .compound _ os => ∀ o ∈ os, o.isCompound = false
  | _ => True

mutual
/-- No compound operation is classically controlled. -/
def plain : Op → Bool
  | .classic o _ => match o with
    | .gate _ _ _ => true
    | .reset _ => true
    | .measure _ _ => true
    | _ => false
  | .compound _ os => allPlain os
  | _ => true
def allPlain : List Op → Bool
  | [] => true
  | o :: os => plain o && allPlain os
end

/-! ### Lemmas -/

mutual
theorem actsOn_iff (q : ℕ) : ∀ o : Op, actsOn q o = true ↔ q ∈ qubits o
  | .gate _ ts cs => by simp [actsOn, qubits]
  | .reset ts => by simp [actsOn, qubits]
  | .measure ts _ => by simp [actsOn, qubits]
  | .classic o _ => by rw [actsOn, qubits]; exact actsOn_iff q o
  | .compound _ os => by rw [actsOn, qubits]; exact anyActsOn_iff q os
theorem anyActsOn_iff (q : ℕ) : ∀ os : List Op, anyActsOn q os = true ↔ q ∈ allQubits os
  | [] => by simp [anyActsOn, allQubits]
  | o :: os => by
    rw [anyActsOn, allQubits, Bool.or_eq_true, List.mem_append, actsOn_iff q o, anyActsOn_iff q os]
end

mutual
theorem used_eq : ∀ o : Op, plain o = true → used o = qubits o
  | .gate _ ts cs, _ => rfl
  | .reset ts, _ => rfl
  | .measure ts _, _ => rfl
  | .classic (.gate _ _ _) _, _ => rfl
  | .classic (.reset ts) _, _ => by simp [used, qubits, Op.targets, Op.controls]
  | .classic (.measure ts _) _, _ => by simp [used, qubits, Op.targets, Op.controls]
  | .classic (.classic _ _) _, h => absurd h (by simp [plain])
  | .classic (.compound _ _) _, h => absurd h (by simp [plain])
  | .compound _ os, h => by
    rw [used, qubits]
    exact allUsed_eq os (by simpa [plain] using h)
theorem allUsed_eq : ∀ os : List Op, allPlain os = true → allUsed os = allQubits os
  | [], _ => rfl
  | o :: os, h => by
    rw [allPlain, Bool.and_eq_true] at h
    rw [allUsed, allQubits, used_eq o h.1, allUsed_eq os h.2]
end

theorem flat_notCompound {o : Op} (h : o.isCompound = false) : flat o = [o] := by
  cases o <;> first | rfl | exact absurd h (by simp [Op.isCompound])

theorem allFlat_notCompound : ∀ {os : List Op}, (∀ o ∈ os, o.isCompound = false) → allFlat os = os
  | [], _ => rfl
  | o :: os, h => by
    rw [allFlat, flat_notCompound (h o List.mem_cons_self), allFlat_notCompound fun o ho => h o (List.mem_cons_of_mem _ ho)]
    rfl

theorem foldl_pair (os : List Op) : ∀ m : ℕ × ℕ,
    os.foldl (fun m o => ((used o).foldl max m.1, (classics o).foldl max m.2)) m =
      ((allUsed os).foldl max m.1, (os.flatMap classics).foldl max m.2) := by
  induction os with
  | nil => intro m; rfl
  | cons o os ih =>
    intro m
    rw [List.foldl_cons, ih, allUsed, List.flatMap_cons, List.foldl_append, List.foldl_append]

theorem le_foldl_max : ∀ (l : List ℕ) (m : ℕ), m ≤ l.foldl max m ∧ ∀ x ∈ l, x ≤ l.foldl max m
  | [], m => by simp
  | y :: l, m => by
    obtain ⟨h1, h2⟩ := le_foldl_max l (max m y)
    rw [List.foldl_cons]
    refine ⟨le_trans (le_max_left _ _) h1, fun x hx => ?_⟩
    rcases List.mem_cons.1 hx with rfl | hx
    · exact le_trans (le_max_right _ _) h1
    · exact h2 x hx

theorem foldl_max_mem : ∀ (l : List ℕ) (m : ℕ), l.foldl max m = m ∨ l.foldl max m ∈ l
  | [], m => by simp
  | y :: l, m => by
    rw [List.foldl_cons]
    rcases foldl_max_mem l (max m y) with h | h
    · rw [h]
      rcases max_choice m y with e | e
      · exact Or.inl e
      · exact Or.inr (by rw [e]; exact List.mem_cons_self)
    · exact Or.inr (List.mem_cons_of_mem _ h)

end MQT.IR.Count
