/-
Reading off the outputs of a circuit from its measurements.

Source in /repo: src/ir/QuantumComputation.cpp 251-332 (`initializeIOMapping`), 745-749
(`isIdleQubit`), 869-880 (`setLogicalQubitGarbage`).

Simplifications: a `std::map` is the list of its entries. `ub`: the iterator over the classical bits is
dereferenced at its end, or a vector is accessed outside of its bounds. Bits and qubits are natural
numbers (bits are cast to 32 bits in the code).
-/
import Verif.Common.Res
import Verif.Opt.Op

set_option autoImplicit false

namespace MQT.Opt.IOMap

open MQT.IR

variable {P : Type}

/-- `map[k] = v`. -/
def mput (k v : ℕ) : List (ℕ × ℕ) → List (ℕ × ℕ)
  | [] => [(k, v)]
  | (k', v') :: m => if k < k' then (k, v) :: (k', v') :: m else if k = k' then (k, v) :: m else (k', v') :: mput k v m

/-- The first entry with this value gets another one (281-286). -/
def displace (b cur : ℕ) : List (ℕ × ℕ) → List (ℕ × ℕ)
  | [] => []
  | (k, v) :: m => if v = b then (k, cur) :: m else (k, v) :: displace b cur m

/-- `map.at(k) = v` for a key that is there (287). -/
def assign (k v : ℕ) (m : List (ℕ × ℕ)) : List (ℕ × ℕ) := m.map fun e => if e.1 = k then (k, v) else e

/-- The output permutation and the qubits measured so far. -/
structure St where
  out : List (ℕ × ℕ)
  meas : List ℕ := []

/-- Record that a qubit is measured into a bit (279-292). -/
def record (found : Bool) (out : List (ℕ × ℕ)) (q b : ℕ) : MQT.Res (List (ℕ × ℕ)) :=
  if found then
    match out.lookup q with
    | none => .throw
    | some cur => .ok (if cur ≠ b then assign q b (displace b cur out) else out)
  else .ok (mput q b out)

/-- The targets of a measurement (271-295). For a qubit that has been measured before, the iterator over
the bits stays where it is (275-277). -/
def scanM (found : Bool) : List ℕ → List ℕ → St → MQT.Res St
  | [], _, s => .ok s
  | q :: qs, cs, s =>
    if q ∈ s.meas then scanM found qs cs s
    else match cs with
      | [] => .ub
      | b :: cs => (record found s.out q b).bind fun out => scanM found qs cs { out := out, meas := q :: s.meas }

/-- The loop over the operations (265-297). -/
def scan (found : Bool) : List (Op P) → St → MQT.Res St
  | [], s => .ok s
  | .measure qs cs :: l, s => (scanM found qs cs s).bind (scan found l)
  | _ :: l, s => scan found l s

/-- Does the circuit have measurements? -/
def measures : List (Op P) → Bool
  | [] => false
  | .measure _ _ :: _ => true
  | _ :: l => measures l

/-- `isIdleQubit`. -/
def idle (ops : List (Op P)) (p : ℕ) : Bool := ops.all fun o => decide (p ∉ o.acts)

/-- Erase the first entry with this value. -/
def eraseVal (l : ℕ) : List (ℕ × ℕ) → List (ℕ × ℕ)
  | [] => []
  | (k, v) :: m => if v = l then m else (k, v) :: eraseVal l m

/-- The output permutation and the garbage flags. -/
structure GSt where
  out : List (ℕ × ℕ)
  garbage : List Bool

/-- `setLogicalQubitGarbage`. -/
def setGarbage (s : GSt) (l : ℕ) : MQT.Res GSt :=
  if l < s.garbage.length then .ok ⟨eraseVal l s.out, s.garbage.set l true⟩ else .ub

/-- One qubit of the initial layout (315-331). -/
def mark (ops : List (Op P)) (anc : List Bool) (s : GSt) (p l : ℕ) : MQT.Res GSt :=
  (if s.out.any fun e => e.2 = l then .ok s else setGarbage s l).bind fun s =>
    match anc[l]? with
    | none => .ub
    | some a => if a && idle ops p then setGarbage s l else .ok s

/-- The loop over the initial layout. -/
def markAll (ops : List (Op P)) (anc : List Bool) : List (ℕ × ℕ) → GSt → MQT.Res GSt
  | [], s => .ok s
  | (p, l) :: m, s => (mark ops anc s p l).bind (markAll ops anc m)

/-- `initializeIOMapping` for a circuit of `n` qubits: the output permutation and the garbage flags. -/
def initIO (n : ℕ) (anc : List Bool) (init out : List (ℕ × ℕ)) (ops : List (Op P)) : MQT.Res GSt :=
  (scan (!out.isEmpty) ops { out := out }).bind fun s =>
    markAll ops anc init
      ⟨if measures ops then s.out.filter fun e => decide (e.1 ∈ s.meas) else s.out, List.replicate n false⟩

end MQT.Opt.IOMap
