/-
Classically controlled operations: construction, copying, and the test whether they are executed.

Sources:
* `include/mqt-core/ir/operations/ClassicControlledOperation.hpp` (fields, defaults);
* `src/ir/operations/ClassicControlledOperation.cpp` 52-66 (constructor for a register), 67-90
  (constructor for a bit), 91-107 (copy constructor, copy assignment), 109-133 (`equals`), 162-180
  (`getInvertedComparisonKind`);
* `src/dd/Operations.cpp` 243-292 (`applyClassicControlledOperation`).

Not modelled: the operation that is wrapped (it is cloned / forwarded to), the name and the parameter
list.
-/
import Mathlib.Data.Nat.Bitwise
import Mathlib.Algebra.BigOperators.Group.Finset.Basic
import Mathlib.Algebra.Order.BigOperators.Group.Finset
import Mathlib.Data.List.Basic
import Mathlib.Tactic.Ring

set_option autoImplicit false
set_option linter.unusedSectionVars false

namespace MQT.IR

/-- `ComparisonKind`. -/
inductive Cmp
  | eq | neq | lt | leq | gt | geq
  deriving DecidableEq

namespace Cmp

/-- The comparison `actual kind expected` as the simulator evaluates it (269-285). -/
def holds (k : Cmp) (actual expected : ℕ) : Bool :=
  match k with
  | eq => actual = expected
  | neq => actual ≠ expected
  | lt => actual < expected
  | leq => actual ≤ expected
  | gt => actual > expected
  | geq => actual ≥ expected

/-- `getInvertedComparisonKind`. -/
def inverted : Cmp → Cmp
  | lt => geq
  | leq => gt
  | gt => leq
  | geq => lt
  | eq => neq
  | neq => eq

end Cmp

/-- The condition of a `ClassicControlledOperation`. -/
structure CC where
  reg : Option (ℕ × ℕ) := none
  bit : Option ℕ := none
  expected : ℕ := 1
  kind : Cmp := .eq
  deriving DecidableEq

namespace CC

/-- Constructor for a register (start, size). -/
def mkReg (start size expected : ℕ) (kind : Cmp) : CC :=
  { reg := some (start, size), expected := expected, kind := kind }

/-- Constructor for a bit; `none`: `std::invalid_argument`. -/
def mkBit (b expected : ℕ) (kind : Cmp) : Option CC :=
  if expected > 1 then none
  else
    let r : CC :=
      if kind = .neq then { bit := some b, kind := .eq, expected := 1 - expected }
      else { bit := some b, kind := kind, expected := expected }
    if r.kind ≠ .eq then none else some r

/-- Copy constructor: `comparisonKind` is not in the initialiser list, so it gets its default. -/
def copy (c : CC) : CC := { reg := c.reg, bit := c.bit, expected := c.expected }

/-- Copy assignment: `comparisonKind` keeps the value it had in the assigned-to object. -/
def assign (dst src : CC) : CC :=
  { dst with
    reg := src.reg
    bit := src.bit
    expected := src.expected }

/-- The loop over the register (256-260); `none`: shift by 64 or more, undefined behaviour. -/
def regValue (m : ℕ → Bool) (start : ℕ) : ℕ → Option ℕ
  | 0 => some 0
  | j + 1 => (regValue m start j).bind fun a =>
      if m (start + j) then (if j < 64 then some (a ||| 1 <<< j) else none) else some a

/-- Whether the operation is executed for the classical memory `m` (246-289). -/
def fires (c : CC) (m : ℕ → Bool) : Option Bool :=
  let v : Option ℕ := match c.reg with
    | some (s, n) => regValue m s n
    | none => some 0
  let v : Option ℕ := match c.bit with
    | some b => some (if m b then 1 else 0)
    | none => v
  v.map fun a => c.kind.holds a c.expected

end CC

/-! ### Facts -/

theorem or_shift {a j : ℕ} (h : a < 2 ^ j) : a ||| 1 <<< j = a + 2 ^ j := by
  rw [Nat.shiftLeft_eq, one_mul, Nat.lor_comm]
  have := Nat.two_pow_add_eq_or_of_lt h 1
  rw [mul_one] at this
  rw [← this, Nat.add_comm]

/-- Little-endian value of the register. -/
def leValue (m : ℕ → Bool) (start size : ℕ) : ℕ :=
  ∑ j ∈ Finset.range size, if m (start + j) then 2 ^ j else 0

theorem leValue_lt (m : ℕ → Bool) (start size : ℕ) : leValue m start size < 2 ^ size := by
  induction size with
  | zero => simp [leValue]
  | succ n ih =>
    rw [leValue, Finset.sum_range_succ, pow_succ]
    rw [leValue] at ih
    split_ifs <;> omega

theorem regValue_eq (m : ℕ → Bool) (start size : ℕ) (h : size ≤ 64) :
    CC.regValue m start size = some (leValue m start size) := by
  induction size with
  | zero => rfl
  | succ n ih =>
    have e : leValue m start (n + 1) = leValue m start n + if m (start + n) then 2 ^ n else 0 :=
      Finset.sum_range_succ _ _
    rw [CC.regValue, ih (by omega), Option.bind_some, e]
    by_cases hm : m (start + n) = true
    · rw [if_pos hm, if_pos (by omega), if_pos hm, or_shift (leValue_lt m start n)]
    · rw [if_neg hm, if_neg hm, Nat.add_zero]

end MQT.IR
