/-
Reordering the operations of a circuit.

Source in /repo: src/ir/QuantumComputation.cpp 1117-1214 (`reorderOperations`); actsOn:
include/mqt-core/ir/operations/Operation.hpp 171-178, CompoundOperation.cpp 169-172,
ClassicControlledOperation.hpp 104-106.

Simplifications: operations are positions in the circuit; an iterator into the list of a qubit is the
rest of the list. `ub`: a null pointer (an operation that has been moved) or the end of a list is
dereferenced. The number of rounds of the outer loop is bounded by fuel; `none`: it does not end.
-/
import Verif.Common.Res
import Verif.Opt.Op

set_option autoImplicit false

namespace MQT.Opt.Reorder

open MQT.IR

variable {P : Type}

/-- The lists of the qubits (1127-1134): `dag.at(q)` throws for qubits that the circuit does not have. -/
def fill (n : ℕ) : ℕ → List (Op P) → (ℕ → List ℕ) → MQT.Res (ℕ → List ℕ)
  | _, [], dag => .ok dag
  | i, o :: l, dag =>
    if ∀ q ∈ o.usedQ, q < n then fill n (i + 1) l fun q => if q ∈ o.usedQ then dag q ++ [i] else dag q
    else .throw

/-- Where the iterators are, and the new circuit. -/
structure St where
  rem : ℕ → List ℕ
  out : List ℕ := []

/-- Are all qubits at this operation (1171-1193)?  The qubits `k - 1, …, 0` are left to check. -/
def ready (act : ℕ → Bool) (rem : ℕ → List ℕ) (q i : ℕ) : ℕ → MQT.Res Bool
  | 0 => .ok true
  | k + 1 =>
    if k ≠ q ∧ act k = true then
      match rem k with
      | [] => .ub
      | j :: _ => if j ≠ i then .ok false else ready act rem q i k
    else ready act rem q i k

/-- Does operation `i` act on the qubit? -/
def actsOn (ops : List (Op P)) (i q : ℕ) : Bool :=
  match ops[i]? with
  | none => false
  | some o => decide (q ∈ o.acts)

/-- Look at one qubit (1157-1209); the flag says whether there was anything to do. -/
def visit (n : ℕ) (ops : List (Op P)) (S : St) (q : ℕ) : MQT.Res (St × Bool) :=
  match S.rem q with
  | [] => .ok (S, false)
  | i :: _ =>
    if i ∈ S.out then .ub
    else (ready (actsOn ops i) S.rem q i n).bind fun b =>
      if b then .ok ({ rem := fun r => if r < n ∧ (r = q ∨ actsOn ops i r = true) then (S.rem r).tail else S.rem r,
                       out := S.out ++ [i] }, true)
      else .ok (S, true)

/-- The inner loop (1156-1210): the qubits `k - 1, …, 0`. -/
def sweep (n : ℕ) (ops : List (Op P)) : ℕ → St → Bool → MQT.Res (St × Bool)
  | 0, S, busy => .ok (S, busy)
  | k + 1, S, busy => (visit n ops S k).bind fun r => sweep n ops k r.1 (busy || r.2)

/-- The outer loop (1151-1211). -/
def loop (n : ℕ) (ops : List (Op P)) : ℕ → St → Option (MQT.Res (List ℕ))
  | 0, _ => none
  | f + 1, S =>
    match sweep n ops n S false with
    | .ub => some .ub
    | .throw => some .throw
    | .ok (S', busy) => if busy then loop n ops f S' else some (.ok S'.out)

/-- The operations at these positions. -/
def pick (ops : List (Op P)) (l : List ℕ) : List (Op P) := l.filterMap fun i => ops[i]?

/-- `reorderOperations` for a circuit whose highest physical qubit is `n - 1`. -/
def reorder (f n : ℕ) (ops : List (Op P)) : Option (MQT.Res (List (Op P))) :=
  match fill n 0 ops fun _ => [] with
  | .ub => some .ub
  | .throw => some .throw
  | .ok dag => (loop n ops f { rem := dag }).map fun r => r.bind fun l => .ok (pick ops l)

end MQT.Opt.Reorder
