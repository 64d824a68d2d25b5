/-
Property C118: the fraction that is printed for a number (`ComplexValue::getLowestFraction`).
-/
import Verif.DD.Fraction
import Mathlib.Tactic.NormNum

set_option autoImplicit false

noncomputable section

open Classical

namespace MQT.DD.Fraction

/-- **C118.** The loop ends, and the result is in lowest terms and has a denominator between 1 and the largest one allowed; for every
number, tolerance and largest denominator but 0. -/
theorem c118_lowest (x eps : ℝ) {mx : ℕ} (hm : 1 ≤ mx) : ∃ r K, (∀ k ≥ K, lowest x eps mx k = some r) ∧
    Nat.Coprime r.1 r.2 ∧ 1 ≤ r.2 ∧ r.2 ≤ mx := by
  obtain ⟨r, hr, h, -⟩ := search_spec hm _ _ _ (Inv.start x eps mx) (Nat.lt_succ_self _)
  exact ⟨r, _, fun k hk => search_le hk hr, h⟩

/-- **C118.** If there is a fraction within the tolerance whose denominator is allowed, the result is such a fraction, and the one with
the least denominator.

Missing from C118: that the result is the closest fraction if there is none within the tolerance, which fails; and numbers below large
tolerances, for which the denominator need not be the least. See below. -/
theorem c118_best_partial {x eps : ℝ} {mx : ℕ} (hm : 1 ≤ mx) (hx : 0 ≤ x) (he : 2 * eps * (mx + 1) < 1) :
    ∃ r K, (∀ k ≥ K, lowest x eps mx k = some r) ∧
      ∀ p q : ℕ, 1 ≤ q → q ≤ mx → |x - p / q| ≤ eps → |x - r.1 / r.2| ≤ eps ∧ r.2 ≤ q := by
  rcases lt_or_ge eps x with h | h
  · obtain ⟨r, hr, -, hb⟩ := search_spec hm _ _ _ (Inv.start x eps mx) (Nat.lt_succ_self _)
    refine ⟨r, _, fun k hk => search_le hk hr, fun p q h1 h2 h3 => ?_⟩
    obtain ⟨h4, h5⟩ := hb h p q h2 ⟨h1, h3⟩
    exact ⟨h4.2, h5⟩
  · refine ⟨(0, 1), mx + 2, fun k hk => search_zero hm hx h he k 0 (by omega) (by omega), fun p q h1 _ _ => ⟨?_, h1⟩⟩
    simpa [abs_of_nonneg hx] using h

/-- **C118.** With the tolerance and the largest denominator set at the start, this holds for every number. -/
theorem c118_default {x : ℝ} (hx : 0 ≤ x) : ∃ r K, (∀ k ≥ K, lowest x (1 / 2 ^ 42) 1024 k = some r) ∧
    ∀ p q : ℕ, 1 ≤ q → q ≤ 1024 → |x - p / q| ≤ 1 / 2 ^ 42 → |x - r.1 / r.2| ≤ 1 / 2 ^ 42 ∧ r.2 ≤ q :=
  c118_best_partial (by norm_num) hx (by norm_num)

/-- **C118 fails.** The result need not be the closest fraction: with denominators up to 2 the number 0.74 becomes 1, not 1/2. -/
theorem c118_not_closest : (∀ k ≥ 4, lowest (37 / 50) (1 / 2 ^ 42) 2 k = some (1, 1)) ∧
    |(37 / 50 : ℝ) - 1 / 2| < |(37 / 50 : ℝ) - 1 / 1| := by
  constructor
  · intro k hk
    refine search_le hk ?_
    norm_num [search, abs_le]
  · rw [abs_of_pos (by norm_num), abs_of_neg (by norm_num)]
    norm_num

/-- **C118 fails.** With a large tolerance a number within it becomes a fraction such as 1/5, not 0. -/
theorem c118_tolerance : (∀ k ≥ 5, lowest (1 / 10) (1 / 10) 1024 k = some (1, 5)) ∧ |(1 / 10 : ℝ) - (0 : ℕ) / (1 : ℕ)| ≤ 1 / 10 := by
  constructor
  · intro k hk
    refine search_le hk ?_
    norm_num [search, abs_le]
  · norm_num [abs_le]

/-- **C118 fails.** With 0 as the largest denominator the result is `1 / 0`. -/
theorem c118_no_denominator (x eps : ℝ) : ∀ k ≥ 1, lowest x eps 0 k = some (1, 0) := by
  intro k hk
  refine search_le hk ?_
  simp [search]

/-- `3/4` is found in four rounds. -/
example : ∀ k ≥ 4, lowest (3 / 4) (1 / 2 ^ 42) 1024 k = some (3, 4) := by
  intro k hk
  refine search_le hk ?_
  norm_num [search, abs_le]

end MQT.DD.Fraction
