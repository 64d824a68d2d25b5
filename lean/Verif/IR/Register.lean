/-
Registers of qubits and bits.

Models `Register` (`include/mqt-core/ir/Register.hpp` 24-77: `getEndIndex`, `operator==`, `contains`, `getLocalIndex`, `getGlobalIndex`), its
hash (115-125) with `combineHash` (`include/mqt-core/ir/Definitions.hpp` 80-83), and the comparison of the registers in
`QuantumComputation::operator==` (`src/ir/QuantumComputation.cpp` 563-587).

An index has `w` bits (32 for qubits, 64 for bits), a size 64 bits; arithmetic wraps around.  `none`: an exception is thrown.
-/
import Mathlib.Data.List.Basic
import Mathlib.Tactic.Linarith

set_option autoImplicit false

namespace MQT.IR.Register

/-! ### Model -/

structure Reg where
  start : ℕ
  size : ℕ
  name : String
deriving DecidableEq

/-- `getEndIndex` (Register.hpp 36-38). -/
def endIndex (w : ℕ) (r : Reg) : ℕ := ((r.start + r.size + (2 ^ 64 - 1)) % 2 ^ 64) % 2 ^ w

/-- `operator==` (Register.hpp 40-42). -/
def eq (r s : Reg) : Bool := r.name = s.name && r.size = s.size

/-- `contains` (Register.hpp 47-49). -/
def contains (r : Reg) (i : ℕ) : Bool := r.start ≤ i && i < (r.start + r.size) % 2 ^ 64

/-- `getLocalIndex` (Register.hpp 51-56). -/
def localIndex (r : Reg) (i : ℕ) : Option ℕ := if contains r i then some (i - r.start) else none

/-- `getGlobalIndex` (Register.hpp 58-63). -/
def globalIndex (w : ℕ) (r : Reg) (j : ℕ) : Option ℕ := if r.size ≤ j then none else some ((r.start + j) % 2 ^ w)

/-- `combineHash` (Definitions.hpp 80-83). -/
def combineHash (a b : ℕ) : ℕ := a ^^^ ((b + 0x9e3779b97f4a7c15 + (a <<< 6) % 2 ^ 64 + a >>> 2) % 2 ^ 64)

/-- The hash of a register (Register.hpp 115-125). -/
def hash (r : Reg) : ℕ := combineHash r.start r.size

/-- The comparison of maps from names to registers in `operator==` of circuits (QuantumComputation.cpp 565): the same names, with equal
registers; the maps are lists with different names. -/
def eqRegs (l l' : List Reg) : Bool := l.length = l'.length && l.all fun r => l'.any fun s => r.name = s.name && eq r s

/-! ### Specification -/

/-- A register of indices that there are: all of its indices have `w ≤ 64` bits, and so has the one behind its end. -/
structure Good (w : ℕ) (r : Reg) : Prop where
  fits : r.start + r.size < 2 ^ w
  bits : w ≤ 64

/-- An index is in a register. -/
def Has (r : Reg) (i : ℕ) : Prop := ∃ j < r.size, i = r.start + j

/-! ### Lemmas -/

theorem Good.lt64 {w : ℕ} {r : Reg} (g : Good w r) : r.start + r.size < 2 ^ 64 :=
  lt_of_lt_of_le g.fits (Nat.pow_le_pow_right (by norm_num) g.bits)

theorem contains_iff {w : ℕ} {r : Reg} (g : Good w r) (i : ℕ) : contains r i = true ↔ Has r i := by
  unfold contains Has
  rw [Nat.mod_eq_of_lt g.lt64]
  simp only [Bool.and_eq_true, decide_eq_true_eq]
  constructor
  · rintro ⟨h1, h2⟩
    exact ⟨i - r.start, by omega, by omega⟩
  · rintro ⟨j, h1, rfl⟩
    omega

end MQT.IR.Register
