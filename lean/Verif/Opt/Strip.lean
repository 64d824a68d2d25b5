/-
Stripping idle qubits.

Source in /repo: src/ir/QuantumComputation.cpp 751-793 (`stripIdleQubits`), 412-459 (`removeQubit`), 745-749
(`isIdleQubit`), 814-824 (`getPhysicalQubitIndex`).

Simplifications: a `std::map` is the list of its entries. Not modelled: the registers; `n` is the sum of the two
counters, of which a removal decrements one. `throw`: an entry of the initial layout is not found. `ub`: the flags are
accessed outside of their vectors, or there is no qubit to be removed.
-/
import Verif.Opt.IOMap
import Mathlib.Logic.Function.Basic

set_option autoImplicit false

namespace MQT.Opt.Strip

open MQT.IR MQT.Opt.IOMap
open Function (update)

variable {P : Type}

/-- Number of qubits, layouts, and the vectors of flags with their length. -/
structure SS where
  n : ℕ
  len : ℕ
  init : List (ℕ × ℕ)
  out : List (ℕ × ℕ)
  anc : ℕ → Bool
  garb : ℕ → Bool

/-- `for (i = l; i < l + k; ++i) f[i] = f[i + 1]` (449-452). -/
def shift (f : ℕ → Bool) (l : ℕ) : ℕ → ℕ → Bool
  | 0 => f
  | k + 1 => shift (update f l (f (l + 1))) (l + 1) k

/-- `map.erase(p)`. -/
def eraseKey (p : ℕ) (m : List (ℕ × ℕ)) : List (ℕ × ℕ) := m.filter fun e => decide (e.1 ≠ p)

/-- `removeQubit`. -/
def removeQubit (s : SS) (l : ℕ) : MQT.Res SS :=
  match s.init.find? fun e => decide (e.2 = l) with
  | none => .throw
  | some (p, _) =>
    if s.n = 0 ∨ s.len < s.n then .ub
    else
      .ok { n := s.n - 1
            len := s.len
            init := eraseKey p s.init
            out := eraseKey p s.out
            anc := update (shift s.anc l (s.n - 1 - l)) (s.n - 1) false
            garb := update (shift s.garb l (s.n - 1 - l)) (s.n - 1) false }

/-- Values above `l` become one less (779-789). -/
def dec (l : ℕ) (m : List (ℕ × ℕ)) : List (ℕ × ℕ) := m.map fun e => if e.2 > l then (e.1, e.2 - 1) else e

/-- One physical qubit (755-791). -/
def visit (force : Bool) (ops : List (Op P)) (s : SS) (p : ℕ) : MQT.Res SS :=
  if idle ops p then
    if (s.out.lookup p).isSome && !force then .ok s
    else match s.init.lookup p with
      | none => .throw
      | some l =>
        if (s.out.any fun e => decide (e.2 = l)) && !force then .ok s
        else (removeQubit s l).bind fun s =>
          .ok (if l < s.n then { s with init := dec l s.init, out := dec l s.out } else s)
  else .ok s

/-- The loop over the physical qubits. -/
def visitAll (force : Bool) (ops : List (Op P)) : List ℕ → SS → MQT.Res SS
  | [], s => .ok s
  | p :: ps, s => (visit force ops s p).bind (visitAll force ops ps)

/-- `stripIdleQubits`. -/
def strip (force : Bool) (ops : List (Op P)) (s : SS) : MQT.Res SS :=
  visitAll force ops (s.init.map Prod.fst).reverse s

end MQT.Opt.Strip
