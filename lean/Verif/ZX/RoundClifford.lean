/-
Rounding of phases to multiples of `π/2`.

Models `roundToClifford` (`src/zx/Utils.cpp` 160-174), `isCloseDivPi` (`include/mqt-core/zx/Rational.hpp` 160-163) and
`approximateCliffords` (`src/zx/ZXDiagram.cpp` 344-350).  Numbers of type `double` are real numbers.
-/
import Verif.ZX.Diagram

set_option autoImplicit false

noncomputable section

open Classical

namespace MQT.ZX

/-! ### Model -/

/-- `isCloseDivPi` (Rational.hpp 160-163). -/
def closeDivPi (a : PiRational) (x tolerance : ℝ) : Prop := |(a.frac : ℝ) - x| < tolerance

/-- `roundToClifford` (Utils.cpp 160-174). -/
def roundToClifford (a : Phase) (tolerance : ℝ) : Phase :=
  if ¬ a.isConstant then a
  else if closeDivPi a.const 0 tolerance then { a with const := PiRational.modPi ⟨0⟩ }
  else if closeDivPi a.const (1 / 2) tolerance then { a with const := PiRational.modPi ⟨1 / 2⟩ }
  else if closeDivPi a.const (-1 / 2) tolerance then { a with const := PiRational.modPi ⟨-1 / 2⟩ }
  else if closeDivPi a.const 1 tolerance then { a with const := PiRational.modPi ⟨1⟩ }
  else a

/-- `approximateCliffords` (ZXDiagram.cpp 344-350). -/
def Diagram.approximateCliffords (D : Diagram) (tolerance : ℝ) : Diagram :=
  { D with vert := fun v => (D.vert v).map fun d => { d with phase := roundToClifford d.phase tolerance } }

/-! ### Lemmas -/

theorem modPi_small {q : ℚ} (h : -1 < q) (h' : q ≤ 1) : PiRational.modPi ⟨q⟩ = ⟨q⟩ := by
  have e := PiRational.modPi_eq ⟨q⟩
  rw [if_neg (by simp only; linarith), if_neg (by simp only; linarith)] at e
  cases hm : PiRational.modPi ⟨q⟩ with
  | mk f => rw [hm] at e; exact congrArg _ e

/-- The result, with the constants as they are. -/
theorem round_eq (a : Phase) (tol : ℝ) : roundToClifford a tol =
    if ¬ a.isConstant then a
    else if |(a.const.frac : ℝ)| < tol then ⟨a.sym, ⟨0⟩⟩
    else if |(a.const.frac : ℝ) - 1 / 2| < tol then ⟨a.sym, ⟨1 / 2⟩⟩
    else if |(a.const.frac : ℝ) + 1 / 2| < tol then ⟨a.sym, ⟨-1 / 2⟩⟩
    else if |(a.const.frac : ℝ) - 1| < tol then ⟨a.sym, ⟨1⟩⟩
    else a := by
  unfold roundToClifford closeDivPi
  rw [modPi_small (q := 0) (by norm_num) (by norm_num), modPi_small (q := 1 / 2) (by norm_num) (by norm_num),
    modPi_small (q := -1 / 2) (by norm_num) (by norm_num), modPi_small (q := 1) (by norm_num) (by norm_num), sub_zero,
    show (a.const.frac : ℝ) - -1 / 2 = a.const.frac + 1 / 2 by ring]

/-- The multiples of `1/2` in the range. -/
theorem clifford_iff (a : Phase) (h : a.const.InRange) : a.isClifford ↔
    a.isConstant ∧ (a.const.frac = 0 ∨ a.const.frac = 1 / 2 ∨ a.const.frac = -1 / 2 ∨ a.const.frac = 1) := by
  unfold Phase.isClifford PiRational.isInteger
  refine and_congr_right fun _ => ⟨fun hd => ?_, ?_⟩
  · obtain ⟨h1, h2⟩ := h
    generalize a.const.frac = q at hd h1 h2
    have hq := Rat.num_div_den q
    rcases hd with hd | hd
    · rw [hd] at hq
      simp only [Nat.cast_one, div_one] at hq
      rw [← hq] at h1 h2 ⊢
      have a1 : -1 < q.num := by exact_mod_cast h1
      have a2 : q.num ≤ 1 := by exact_mod_cast h2
      have : q.num = 0 ∨ q.num = 1 := by omega
      rcases this with e | e <;> rw [e] <;> norm_num
    · rw [hd] at hq
      have h3 : q.num = 2 * q := by
        push_cast at hq
        linarith
      have a1 : (-2 : ℚ) < q.num := by rw [h3]; linarith
      have a2 : (q.num : ℚ) ≤ 2 := by rw [h3]; linarith
      have a1' : -2 < q.num := by exact_mod_cast a1
      have a2' : q.num ≤ 2 := by exact_mod_cast a2
      have : q.num = -1 ∨ q.num = 0 ∨ q.num = 1 ∨ q.num = 2 := by omega
      rcases this with e | e | e | e <;> rw [e] at h3 <;> push_cast at h3
      · right; right; left; linarith
      · left; linarith
      · right; left; linarith
      · right; right; right; linarith
  · rintro (e | e | e | e) <;> rw [e]
    · left; rfl
    · right; decide +kernel
    · right; decide +kernel
    · left; rfl

end MQT.ZX
