/-
Property C120: arithmetic, printing and hashing of complex numbers (`ComplexValue`).
-/
import Verif.DD.Print
import Verif.Props.Fraction

set_option autoImplicit false

noncomputable section

open Classical

namespace MQT.DD.Print

/-- **C120.** The product is the product of complex numbers. -/
theorem c120_mul (a b : CV) : (a.mul b).toC = a.toC * b.toC := by
  apply Complex.ext <;> simp [CV.toC, CV.mul, kahan] <;> ring

/-- **C120.** The quotient is the quotient of complex numbers. -/
theorem c120_div (a b : CV) (hb : b.toC ≠ 0) : (a.div b).toC = a.toC / b.toC := by
  have hd : b.r * b.r + b.i * b.i ≠ 0 := by
    intro h
    apply hb
    have h1 : b.r = 0 := by nlinarith [mul_self_nonneg b.r, mul_self_nonneg b.i]
    have h2 : b.i = 0 := by nlinarith [mul_self_nonneg b.r, mul_self_nonneg b.i]
    apply Complex.ext <;> simp [CV.toC, h1, h2]
  have e : (if |b.i| ≤ |b.r| then b.r * b.r + b.i * b.i else b.i * b.i + b.r * b.r) = b.r * b.r + b.i * b.i := by
    split_ifs
    · rfl
    · ring
  rw [eq_div_iff hb]
  apply Complex.ext <;> simp only [CV.toC, CV.div, kahan, e, Complex.mul_re, Complex.mul_im]
  · rw [div_mul_eq_mul_div, div_mul_eq_mul_div, ← sub_div, div_eq_iff hd]
    ring
  · rw [div_mul_eq_mul_div, div_mul_eq_mul_div, ← add_div, div_eq_iff hd]
    ring

theorem fraction_spec {eps y : ℝ} (hy : 0 ≤ y) (he : eps < 1 / 2050) : ∃ f, fraction eps y = some f ∧
    (Least eps y f.1 f.2 ∨ ¬ |y - f.1 / f.2| ≤ eps ∧ ¬ Near eps y) := by
  obtain ⟨f, hf⟩ := fraction_total eps y
  obtain ⟨r, K, hr, h1, h2, h3⟩ := Fraction.c118_lowest y eps (mx := 1024) (by norm_num)
  obtain ⟨r', K', hr', h4⟩ := Fraction.c118_best_partial (x := y) (eps := eps) (mx := 1024) (by norm_num) hy (by norm_num; linarith)
  have hf' : Fraction.search y eps 1024 (2 * 1024 + ⌈y⌉₊ + 3) (0, 1) (1, 0) = some f := hf
  have e1 : f = r := by
    have := Fraction.search_le (Nat.le_max_left (2 * 1024 + ⌈y⌉₊ + 3) K) hf'
    exact Option.some.inj (this.symm.trans (hr _ (Nat.le_max_right _ _)))
  have e2 : f = r' := by
    have := Fraction.search_le (Nat.le_max_left (2 * 1024 + ⌈y⌉₊ + 3) K') hf'
    exact Option.some.inj (this.symm.trans (hr' _ (Nat.le_max_right _ _)))
  subst e1
  subst e2
  refine ⟨f, hf, ?_⟩
  by_cases hc : |y - f.1 / f.2| ≤ eps
  · exact Or.inl ⟨h1, h2, h3, hc, fun p q hp hq h => (h4 p q hp hq h).2⟩
  · exact Or.inr ⟨hc, fun ⟨p, q, hp, hq, h⟩ => hc (h4 p q hp hq h).1⟩

/-- **C120.** The form chosen is the first that applies: 0 for a number within the tolerance, a fraction if the number is within the
tolerance of one with a denominator up to 1024, then a fraction of `√2`, then a multiple of `π`, and a decimal only if none of these is
close enough.  The fraction is in lowest terms and has the least denominator.  The tolerance is below 1/2050, as at the start. -/
theorem c120_form {eps : ℝ} (he : eps < 1 / 2050) {x : ℝ} (hx : 0 ≤ x) : ∃ f, formOf eps x = some f ∧ f.Right eps x := by
  unfold formOf
  rw [abs_of_nonneg hx]
  by_cases h0 : x ≤ eps
  · exact ⟨_, if_pos h0, h0⟩
  rw [if_neg h0]
  push Not at h0
  obtain ⟨f, hf, h⟩ := fraction_spec hx he
  rw [hf, Option.bind_some]
  rcases h with h | ⟨h, n1⟩
  · exact ⟨_, if_pos h.2.2.2.1, h0, h⟩
  rw [if_neg h]
  obtain ⟨f, hf, h⟩ := fraction_spec (y := x * √2) (by positivity) he
  rw [hf, Option.bind_some]
  rcases h with h | ⟨h, n2⟩
  · exact ⟨_, if_pos h.2.2.2.1, h0, n1, h⟩
  rw [if_neg h]
  obtain ⟨f, hf, h⟩ := fraction_spec (y := x / Real.pi) (div_nonneg hx Real.pi_pos.le) he
  rw [hf, Option.bind_some]
  rcases h with h | ⟨h, n3⟩
  · exact ⟨_, if_pos h.2.2.2.1, h0, n1, n2, h⟩
  · exact ⟨_, if_neg h, rfl, h0, n1, n2, n3⟩

/-- **C120.** The sign is printed for negative numbers only, and the form is that of the absolute value. -/
theorem c120_sign (eps x : ℝ) : printFormatted eps x = (formOf eps |x|).map (⟨decide (x < 0), ·⟩) := by
  unfold printFormatted
  by_cases h : x < 0
  · rw [if_pos h, abs_of_neg h]
    simp [h]
  · rw [if_neg h, abs_of_nonneg (not_lt.1 h)]
    simp [h]

/-- **C120.** A printed real number is the number up to `π` times the tolerance. -/
theorem c120_real {eps : ℝ} (he : 0 ≤ eps) (x : ℝ) : ∃ s, printFormatted eps x = some s ∧ |s.value - x| ≤ eps * Real.pi :=
  print_spec he x

/-- **C120.** Something is printed for every complex number, and it is the number up to a multiple of the tolerance.

Missing from C120: numbers whose real part is within the tolerance of 0 and whose imaginary part is not, but is within the tolerance
of the real part or of its opposite; for them it fails, see below. -/
theorem c120_complex_partial {eps : ℝ} (he : 0 ≤ eps) (real imag : ℝ)
    (h : ¬ (|real| ≤ eps ∧ ¬ |imag| ≤ eps ∧ (|real - imag| ≤ eps ∨ |real + imag| ≤ eps))) :
    ∃ s, toStringFormatted eps real imag = some s ∧ |s.value.re - real| ≤ eps * Real.pi ∧ |s.value.im - imag| ≤ eps * (Real.pi + 1) := by
  have hp := Real.pi_gt_three
  have h1 : eps ≤ eps * Real.pi := le_mul_of_one_le_right he (by linarith)
  have hm : eps * (Real.pi + 1) = eps * Real.pi + eps := by ring
  unfold toStringFormatted
  by_cases h0 : |real| ≤ eps ∧ |imag| ≤ eps
  · rw [if_pos h0]
    refine ⟨_, rfl, ?_, ?_⟩
    · simp only [CShown.value, Complex.zero_re, zero_sub, abs_neg]
      linarith [h0.1]
    · simp only [CShown.value, Complex.zero_im, zero_sub, abs_neg]
      linarith [h0.2]
  rw [if_neg h0]
  by_cases hr : |real| ≤ eps
  · have hi : ¬ |imag| ≤ eps := fun hi => h0 ⟨hr, hi⟩
    rw [if_neg (not_not.2 hr), if_neg (fun h2 => h ⟨hr, hi, Or.inl h2⟩),
      if_neg (fun h3 => h ⟨hr, hi, Or.inr (by rwa [sub_neg_eq_add] at h3)⟩)]
    obtain ⟨t, ht, hw⟩ := print_spec he imag
    refine ⟨_, by rw [ht]; rfl, ?_, ?_⟩
    · simp [CShown.value]
      linarith
    · simp [CShown.value]
      linarith
  · rw [if_pos hr]
    obtain ⟨s, hs, hv⟩ := print_spec he real
    rw [hs, Option.bind_some]
    by_cases hi : |imag| ≤ eps
    · rw [if_neg (not_not.2 hi)]
      refine ⟨_, rfl, by simpa [CShown.value] using hv, ?_⟩
      simp only [CShown.value, Complex.ofReal_im, zero_sub, abs_neg]
      linarith
    rw [if_pos hi]
    by_cases h4 : |real - imag| ≤ eps
    · rw [if_pos h4]
      refine ⟨_, rfl, by simpa [CShown.value] using hv, ?_⟩
      simp [CShown.value]
      rw [abs_le] at hv h4 ⊢
      constructor <;> linarith [hv.1, hv.2, h4.1, h4.2]
    rw [if_neg h4]
    by_cases h5 : |real - -imag| ≤ eps
    · rw [if_pos h5]
      refine ⟨_, rfl, by simpa [CShown.value] using hv, ?_⟩
      simp [CShown.value]
      rw [abs_le] at hv h5 ⊢
      constructor <;> linarith [hv.1, hv.2, h5.1, h5.2]
    rw [if_neg h5]
    obtain ⟨t, ht, hw⟩ := print_spec he imag
    refine ⟨_, by rw [ht]; rfl, by simpa [CShown.value] using hv, ?_⟩
    simp [CShown.value]
    linarith

/-- **C120 fails.** A number whose parts are about as large as the tolerance is printed as `(1+i)`. -/
theorem c120_tiny {eps : ℝ} (he : 0 < eps) : ∃ s, toStringFormatted eps (eps / 2) (7 / 5 * eps) = some s ∧ s.value = 1 + Complex.I := by
  refine ⟨.times none true, ?_, by simp [CShown.value]⟩
  unfold toStringFormatted
  have h1 : |eps / 2| ≤ eps := by rw [abs_of_pos (by linarith)]; linarith
  have h2 : ¬ |7 / 5 * eps| ≤ eps := by rw [abs_of_pos (by linarith)]; linarith
  have h3 : |eps / 2 - 7 / 5 * eps| ≤ eps := by rw [abs_of_neg (by linarith)]; linarith
  rw [if_neg (fun h => h2 h.2), if_neg (not_not.2 h1), if_pos h3]

/-- **C120 fails.** The hash of a number with a negative real part is undefined: a negative `double` is converted to an unsigned
integer. -/
theorem c120_hash_negative {eps : ℝ} (he : 0 < eps) (c : CV) (hc : c.r ≤ -eps) : hashKey eps c = none := by
  have h : c.r / eps ≤ -1 := by rwa [div_le_iff₀ he, neg_one_mul]
  have hz : MQT.ZX.PiRational.roundAway (c.r / eps) < 0 := by
    unfold MQT.ZX.PiRational.roundAway
    rw [if_neg (by linarith)]
    have : ⌈c.r / eps - 1 / 2⌉ ≤ -1 := Int.ceil_le.2 (by push_cast; linarith)
    omega
  unfold hashKey hashPart
  simp only
  rw [if_neg (fun h => by omega)]
  rfl

/-- **C120.** For numbers that are not negative and not too large the hash is defined, and made of the closest multiples of the
tolerance. -/
theorem c120_hash {eps : ℝ} (he : 0 < eps) (c : CV) (hr : 0 ≤ c.r) (hi : 0 ≤ c.i) (hr' : c.r < 2 ^ 63 * eps) (hi' : c.i < 2 ^ 63 * eps) :
    ∃ a b : ℕ, hashKey eps c = some (a, b) ∧ |c.r - a * eps| ≤ eps / 2 ∧ |c.i - b * eps| ≤ eps / 2 := by
  have key : ∀ x : ℝ, 0 ≤ x → x < 2 ^ 63 * eps → ∃ a : ℕ, hashPart eps x = some a ∧ |x - a * eps| ≤ eps / 2 := by
    intro x h0 h1
    have h2 : 0 ≤ x / eps := div_nonneg h0 he.le
    have h3 : x / eps < 2 ^ 63 := (div_lt_iff₀ he).2 h1
    have f1 := Int.floor_le (x / eps + 1 / 2)
    have f2 := Int.lt_floor_add_one (x / eps + 1 / 2)
    have n0 : 0 ≤ ⌊x / eps + 1 / 2⌋ := Int.floor_nonneg.2 (by linarith)
    have n1 : ⌊x / eps + 1 / 2⌋ < 2 ^ 64 := by
      rw [Int.floor_lt]
      push_cast
      linarith
    refine ⟨⌊x / eps + 1 / 2⌋.toNat, ?_, ?_⟩
    · simp only [hashPart, MQT.ZX.PiRational.roundAway, if_pos h2]
      rw [if_pos ⟨n0, n1⟩]
    · have e : ((⌊x / eps + 1 / 2⌋.toNat : ℕ) : ℝ) = (⌊x / eps + 1 / 2⌋ : ℝ) := by
        exact_mod_cast Int.toNat_of_nonneg n0
      rw [e]
      have hx : x = x / eps * eps := by field_simp
      rw [abs_le]
      constructor <;> nlinarith
  obtain ⟨a, ha, ha'⟩ := key c.r hr hr'
  obtain ⟨b, hb, hb'⟩ := key c.i hi hi'
  exact ⟨a, b, by simp [hashKey, ha, hb], ha', hb'⟩

/-- **C120 fails.** Numbers that count as equal can have different hashes. -/
theorem c120_hash_equal {eps : ℝ} (he : 0 < eps) : let a : CV := ⟨2 / 5 * eps, 2 / 5 * eps⟩; let b : CV := ⟨3 / 5 * eps, 3 / 5 * eps⟩
    a.approx eps b ∧ hashKey eps a = some (0, 0) ∧ hashKey eps b = some (1, 1) := by
  have r1 : MQT.ZX.PiRational.roundAway (2 / 5 * eps / eps) = 0 := by
    rw [mul_div_cancel_right₀ _ he.ne']
    unfold MQT.ZX.PiRational.roundAway
    rw [if_pos (by norm_num), Int.floor_eq_iff]
    norm_num
  have r2 : MQT.ZX.PiRational.roundAway (3 / 5 * eps / eps) = 1 := by
    rw [mul_div_cancel_right₀ _ he.ne']
    unfold MQT.ZX.PiRational.roundAway
    rw [if_pos (by norm_num), Int.floor_eq_iff]
    norm_num
  refine ⟨⟨?_, ?_⟩, ?_, ?_⟩
  · simp only
    rw [abs_of_neg (by linarith)]
    linarith
  · simp only
    rw [abs_of_neg (by linarith)]
    linarith
  · simp [hashKey, hashPart, r1]
  · simp [hashKey, hashPart, r2]

/-- `3/4 - i/2` is printed with fractions, and the quotient of `1 + i` and `i` is `1 - i`. -/
example : (CV.div ⟨1, 1⟩ ⟨0, 1⟩).toC = 1 - Complex.I ∧ formOf (1 / 2 ^ 42) (3 / 4) = some (.frac 3 4) := by
  constructor
  · apply Complex.ext <;> norm_num [CV.toC, CV.div, kahan]
  · have h : fraction (1 / 2 ^ 42) (3 / 4) = some (3, 4) := by
      refine Fraction.search_le (k := 4) (by omega) ?_
      norm_num [Fraction.search, abs_le]
    unfold formOf
    rw [if_neg (by rw [abs_of_pos] <;> norm_num), h, Option.bind_some, if_pos (by norm_num)]

end MQT.DD.Print
