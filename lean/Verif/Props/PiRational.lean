/-
C56: phases stay in (-π, π] and are right modulo 2π.
-/
import Verif.ZX.PiRational

set_option autoImplicit false

noncomputable section

namespace MQT.ZX.PiRational

/-- **C56.** Sums, differences, products and negatives of phases in range are in range and equal, as angles,
to the exact results. -/
theorem c56_add {a b : PiRational} (ha : a.InRange) (hb : b.InRange) :
    (a.add b).InRange ∧ Cong (a.add b).frac (a.frac + b.frac) :=
  ⟨(modPi_range_iff _).2 ⟨by linarith [ha.1, hb.1], by linarith [ha.2, hb.2]⟩, modPi_cong _⟩

theorem c56_sub {a b : PiRational} (ha : a.InRange) (hb : b.InRange) :
    (a.sub b).InRange ∧ Cong (a.sub b).frac (a.frac - b.frac) :=
  ⟨(modPi_range_iff _).2 ⟨by linarith [ha.1, hb.2], by linarith [ha.2, hb.1]⟩, modPi_cong _⟩

theorem c56_neg {a : PiRational} (ha : a.InRange) : (a.neg).InRange ∧ Cong a.neg.frac (-a.frac) := by
  have e : ((-a.frac.num : ℤ) / (a.frac.den : ℤ) : ℚ) = -a.frac := by
    push_cast
    rw [neg_div, ← frac_eq]
  have hn : a.neg = modPi ⟨-a.frac⟩ := by unfold neg; rw [e]
  rw [hn]
  exact ⟨(modPi_range_iff _).2 ⟨by simp only; linarith [ha.2], by simp only; linarith [ha.1]⟩, modPi_cong _⟩

theorem c56_mul {a b : PiRational} (ha : a.InRange) (hb : b.InRange) :
    (a.mul b).InRange ∧ (a.mul b).frac = a.frac * b.frac := by
  obtain ⟨a1, a2⟩ := ha
  obtain ⟨b1, b2⟩ := hb
  have h1 : -1 < a.frac * b.frac := by
    rcases le_or_gt 0 a.frac with h | h
    · rcases h.eq_or_lt with h0 | h0
      · rw [← h0]; norm_num
      · nlinarith
    · nlinarith
  have h2 : a.frac * b.frac ≤ 1 := by
    rcases le_or_gt 0 a.frac with h | h
    · nlinarith
    · nlinarith
  have e : (a.mul b).frac = a.frac * b.frac := by
    unfold mul
    rw [modPi_eq, if_neg (not_lt.2 h2), if_neg (not_le.2 h1)]
  exact ⟨⟨by rw [e]; exact h1, by rw [e]; exact h2⟩, e⟩

/-- **C56.** Construction, and arithmetic with integers, give the right angle. Full property: the result also
lies in (-1, 1].  It does exactly when the exact value lies in (-3, 3], since `modPi` corrects only once. -/
theorem c56_construct_partial (q : ℚ) : Cong (modPi ⟨q⟩).frac q ∧ ((modPi ⟨q⟩).InRange ↔ -3 < q ∧ q ≤ 3) :=
  ⟨modPi_cong _, modPi_range_iff _⟩

theorem c56_ofFrac_partial (n d : ℤ) (hd : d ≠ 0) : ∃ a, ofFrac n d = .ok a ∧ Cong a.frac (n / d) ∧
    (a.InRange ↔ -3 < (n : ℚ) / d ∧ (n : ℚ) / d ≤ 3) :=
  ⟨_, by unfold ofFrac; rw [if_neg hd], modPi_cong _, modPi_range_iff _⟩

theorem c56_integers_partial (a : PiRational) (k : ℤ) :
    (Cong (a.addInt k).frac (a.frac + k) ∧ ((a.addInt k).InRange ↔ -3 < a.frac + k ∧ a.frac + k ≤ 3)) ∧
    (Cong (a.subInt k).frac (a.frac - k) ∧ ((a.subInt k).InRange ↔ -3 < a.frac - k ∧ a.frac - k ≤ 3)) ∧
    (Cong (a.mulInt k).frac (a.frac * k) ∧ ((a.mulInt k).InRange ↔ -3 < a.frac * k ∧ a.frac * k ≤ 3)) :=
  ⟨⟨modPi_cong _, modPi_range_iff _⟩, ⟨modPi_cong _, modPi_range_iff _⟩, ⟨modPi_cong _, modPi_range_iff _⟩⟩

theorem c56_div_partial (a b : PiRational) (hb : b.frac ≠ 0) : ∃ c, a.div b = .ok c ∧
    Cong c.frac (a.frac / b.frac) ∧ (c.InRange ↔ -3 < a.frac / b.frac ∧ a.frac / b.frac ≤ 3) :=
  ⟨_, by unfold div; rw [if_neg hb], modPi_cong _, modPi_range_iff _⟩

theorem c56_divInt {a : PiRational} (ha : a.InRange) {k : ℤ} (hk : k ≠ 0) : ∃ c, a.divInt k = .ok c ∧ c.InRange ∧
    Cong c.frac (a.frac / k) := by
  refine ⟨_, by unfold divInt; rw [if_neg hk], (modPi_range_iff _).2 ?_, modPi_cong _⟩
  have hk1 : (1 : ℚ) ≤ |(k : ℚ)| := by exact_mod_cast Int.one_le_abs hk
  have h : |a.frac / k| ≤ 1 := by
    rw [abs_div, div_le_one (by linarith)]
    exact (abs_le.2 ⟨ha.1.le, ha.2⟩).trans hk1
  have := abs_le.1 h
  exact ⟨by simp only; linarith, by simp only; linarith⟩

/-- Five π is stored as three π. -/
theorem c56_out_of_range : ∃ a, ofFrac 5 1 = .ok a ∧ a.frac = 3 ∧ ¬ a.InRange := by
  refine ⟨_, by unfold ofFrac; rw [if_neg one_ne_zero], ?_, ?_⟩
  · rw [modPi_eq]; norm_num
  · rw [modPi_range_iff]; norm_num

/-- Even a quotient of two phases in range can be out of range: `π / (π/5)` gives `3π`. -/
theorem c56_div_out_of_range : ∃ c, (⟨1⟩ : PiRational).div ⟨1 / 5⟩ = .ok c ∧ ¬ c.InRange ∧
    (⟨1⟩ : PiRational).InRange ∧ (⟨1 / 5⟩ : PiRational).InRange := by
  refine ⟨_, by unfold div; rw [if_neg (by norm_num)], ?_, ⟨by norm_num, by norm_num⟩, ⟨by norm_num, by norm_num⟩⟩
  rw [modPi_range_iff]; norm_num

/-- `k - a` and `k / a` for an integer `k` compute `a - k` and `a / k`: wrong already for `1 - 1/2` and
`1 / (1/2)`. -/
theorem c56_int_left_wrong :
    ¬ Cong (intSub 1 ⟨1 / 2⟩).frac (1 - 1 / 2) ∧ ∃ c, intDiv 1 ⟨1 / 2⟩ = .ok c ∧ ¬ Cong c.frac (1 / (1 / 2)) := by
  have h1 : (intSub 1 ⟨1 / 2⟩).frac = -1 / 2 := by
    unfold intSub subInt; rw [modPi_eq]; norm_num
  refine ⟨?_, _, by unfold intDiv divInt; rw [if_neg one_ne_zero], ?_⟩
  · rintro ⟨k, hk⟩
    rw [h1] at hk
    have : (2 * k : ℚ) = -1 := by linarith
    have : 2 * k = -1 := by exact_mod_cast this
    omega
  · rintro ⟨k, hk⟩
    have e : (modPi ⟨(⟨1 / 2⟩ : PiRational).frac / ((1 : ℤ) : ℚ)⟩).frac = 1 / 2 := by rw [modPi_eq]; norm_num
    rw [e] at hk
    have : (4 * k : ℚ) = -3 := by linarith
    have : 4 * k = -3 := by exact_mod_cast this
    omega

/-- **C56.** A phase constructed from a double is in range and, as an angle, within `10⁻⁹ π` of it.  Full
property: construction from a double always succeeds; see the two counterexamples below. -/
theorem c56_ofReal_partial {val : ℝ} {a : PiRational} (h : ofReal val = .ok a) :
    a.InRange ∧ a.Approx (val / Real.pi) (1 / 10 ^ 9) := ofReal_spec h

theorem roundAway_int (n : ℤ) : roundAway n = n := by
  unfold roundAway
  split_ifs with h
  · rw [Int.floor_eq_iff]; constructor <;> linarith
  · rw [Int.ceil_eq_iff]; constructor <;> linarith

/-- The angle `π / 10¹⁰` makes the code convert a number to `int` that does not fit. -/
theorem c56_ofReal_overflow : ofReal (Real.pi / 10 ^ 10) = .ub := by
  have hp := Real.pi_gt_three
  have hm : Real.pi / (Real.pi / 10 ^ 10) = ((10 ^ 10 : ℤ) : ℝ) := by
    have := Real.pi_pos.ne'
    push_cast
    field_simp
    norm_num
  unfold ofReal
  rw [if_neg]
  · simp only [hm, roundAway_int]
    rw [sub_self, abs_zero, if_pos (by unfold tol; positivity)]
    rfl
  · rw [not_lt, abs_of_pos (by positivity)]
    unfold tol
    rw [div_le_div_iff₀ (by positivity) (by positivity)]
    nlinarith

/-- A huge angle is taken for a multiple of `π/0`. -/
theorem c56_ofReal_huge : ofReal (Real.pi * 10 ^ 14) = .throw := by
  have hp := Real.pi_gt_three
  have hm : Real.pi / (Real.pi * 10 ^ 14) = 1 / 10 ^ 14 := by
    have := Real.pi_pos.ne'
    field_simp
  have hr : roundAway (1 / 10 ^ 14) = 0 := by
    unfold roundAway
    rw [if_pos (by positivity), Int.floor_eq_iff]
    constructor <;> norm_num
  unfold ofReal
  rw [if_neg]
  · simp only [hm, hr]
    rw [if_pos]
    · rfl
    · unfold tol
      rw [Int.cast_zero, zero_sub, abs_neg, abs_of_pos (by positivity)]
      norm_num
  · rw [not_lt, abs_of_pos (by positivity)]
    unfold tol
    have : (1 : ℝ) / 10 ^ 13 ≤ 1 := by norm_num
    nlinarith

/-- **C56.** The comparisons by cross multiplication compare the values. -/
theorem c56_compare (a b : PiRational) (k : ℤ) : (a.lt b ↔ a.frac < b.frac) ∧ (a.le b ↔ a.frac ≤ b.frac) ∧
    (a.eq b ↔ a = b) ∧ (a.ltInt k ↔ a.frac < k) ∧ (intLt k a ↔ k < a.frac) ∧ (a.leInt k ↔ a.frac ≤ k) ∧
    (intLe k a ↔ k ≤ a.frac) ∧ (a.eqInt k ↔ a.frac = k) :=
  ⟨lt_iff a b, le_iff a b, eq_iff a b, ltInt_iff a k, intLt_iff k a, leInt_iff a k, intLe_iff k a, eqInt_iff a k⟩

/-- `3/4 π + 1/2 π = -3/4 π`. -/
example : ((⟨3 / 4⟩ : PiRational).add ⟨1 / 2⟩).frac = -3 / 4 := by
  unfold add; rw [modPi_eq]; norm_num

/-- The angle `π/3` is stored exactly. -/
example : ofReal (Real.pi / 3) = .ok ⟨1 / 3⟩ := by
  have hp := Real.pi_gt_three
  have hm : Real.pi / (Real.pi / 3) = ((3 : ℤ) : ℝ) := by
    have := Real.pi_pos.ne'
    push_cast; field_simp
  unfold ofReal
  rw [if_neg]
  · simp only [hm, roundAway_int]
    rw [sub_self, abs_zero, if_pos (by unfold tol; positivity)]
    show Res.ok (modPi ⟨_⟩) = _
    congr 1
    have : ∀ a b : PiRational, a.frac = b.frac → a = b := fun a b h => by cases a; cases b; congr
    apply this
    rw [modPi_eq]; norm_num
  · rw [not_lt, abs_of_pos (by positivity)]
    unfold tol
    rw [div_le_div_iff₀ (by positivity) (by positivity)]
    nlinarith

end MQT.ZX.PiRational
