/-
`PiRational` (`include/mqt-core/zx/Rational.hpp`, `src/zx/Rational.cpp`): rational multiples of π.

`boost::multiprecision::cpp_rational` (or GMP's) is exact, normalised and of unlimited size: `ℚ`.
Doubles are exact reals.
-/
import Mathlib.Data.Rat.Floor
import Mathlib.Algebra.Order.Round
import Mathlib.Analysis.Real.Pi.Bounds
import Verif.Common.Vec

set_option autoImplicit false

noncomputable section

open Classical

namespace MQT.ZX

/-- A fraction, in units of π (Rational.hpp 173). -/
structure PiRational where
  frac : ℚ
deriving DecidableEq

namespace PiRational

/-! ### Model -/

/-- Rational.hpp 241-251: comparison by cross multiplication. -/
def lt (a b : PiRational) : Prop := a.frac.num * b.frac.den < b.frac.num * a.frac.den
def ltInt (a : PiRational) (k : ℤ) : Prop := a.frac.num < k * a.frac.den
def intLt (k : ℤ) (a : PiRational) : Prop := k * a.frac.den < a.frac.num
/-- Rational.hpp 253-263. -/
def le (a b : PiRational) : Prop := a.frac.num * b.frac.den ≤ b.frac.num * a.frac.den
def leInt (a : PiRational) (k : ℤ) : Prop := a.frac.num ≤ k * a.frac.den
def intLe (k : ℤ) (a : PiRational) : Prop := k * a.frac.den ≤ a.frac.num
/-- Rational.hpp 269-271: `lhs > rhs` is `rhs < lhs` (likewise 265-287). -/
def gtInt (a : PiRational) (k : ℤ) : Prop := intLt k a
/-- Rational.hpp 289-295. -/
def eq (a b : PiRational) : Prop := a.frac.num = b.frac.num ∧ a.frac.den = b.frac.den
def eqInt (a : PiRational) (k : ℤ) : Prop := a.frac.num = k ∧ a.frac.den = 1

/-- `modPi` (Rational.cpp 94-104): at most one correction by two.  `setDenom` (Rational.hpp 181-183)
assigns to a temporary. -/
def modPi (a : PiRational) : PiRational :=
  if a.gtInt 1 then ⟨(a.frac.num - 2 * a.frac.den : ℤ) / (a.frac.den : ℤ)⟩
  else if a.leInt (-1) then ⟨(a.frac.num + 2 * a.frac.den : ℤ) / (a.frac.den : ℤ)⟩
  else a

/-- `PiRational(num, denom)` (Rational.hpp 51-57); a zero denominator throws. -/
def ofFrac (num denom : ℤ) : Res PiRational :=
  if denom = 0 then .throw else .ok (modPi ⟨num / denom⟩)

/-- `PiRational(num)` (Rational.hpp 66). -/
def ofInt (num : ℤ) : PiRational := modPi ⟨num⟩

/-- Rational.cpp 47-92. -/
def add (a b : PiRational) : PiRational := modPi ⟨a.frac + b.frac⟩
def addInt (a : PiRational) (k : ℤ) : PiRational := modPi ⟨a.frac + k⟩
def sub (a b : PiRational) : PiRational := modPi ⟨a.frac - b.frac⟩
def subInt (a : PiRational) (k : ℤ) : PiRational := modPi ⟨a.frac - k⟩
def mul (a b : PiRational) : PiRational := modPi ⟨a.frac * b.frac⟩
def mulInt (a : PiRational) (k : ℤ) : PiRational := modPi ⟨a.frac * k⟩
def div (a b : PiRational) : Res PiRational := if b.frac = 0 then .throw else .ok (modPi ⟨a.frac / b.frac⟩)
def divInt (a : PiRational) (k : ℤ) : Res PiRational := if k = 0 then .throw else .ok (modPi ⟨a.frac / k⟩)

/-- Unary minus (Rational.hpp 186-188). -/
def neg (a : PiRational) : PiRational := modPi ⟨(-a.frac.num : ℤ) / (a.frac.den : ℤ)⟩

/-- `int64_t - PiRational` (Rational.hpp 210-213): `rhs -= lhs; return rhs`. -/
def intSub (k : ℤ) (a : PiRational) : PiRational := a.subInt k
/-- `int64_t / PiRational` (Rational.hpp 236-239): `rhs /= lhs; return rhs`. -/
def intDiv (k : ℤ) (a : PiRational) : Res PiRational := a.divInt k

def isInteger (a : PiRational) : Prop := a.frac.den = 1
def isZero (a : PiRational) : Prop := a.frac.num = 0

/-- `PARAMETER_TOLERANCE`, `MAX_DENOM` (ZXDefinitions.hpp 72-73). -/
def tol : ℝ := 1 / 10 ^ 13
def maxDenom : ℤ := 10 ^ 9

/-- Truncation of a real to an integer (the double-to-integer conversion). -/
def trunc (x : ℝ) : ℤ := if 0 ≤ x then ⌊x⌋ else ⌈x⌉

/-- `std::round`: half away from zero. -/
def roundAway (x : ℝ) : ℤ := if 0 ≤ x then ⌊x + 1 / 2⌋ else ⌈x - 1 / 2⌉

/-- Conversion to `int`: undefined when the value does not fit. -/
def toInt32 (x : ℤ) : Res ℤ := if -2 ^ 31 ≤ x ∧ x < 2 ^ 31 then .ok x else .ub

/-- `PiRational(double)` (Rational.cpp 21-45). -/
def ofReal (val : ℝ) : Res PiRational :=
  if |val| < tol then .ok ⟨0⟩
  else
    let multPi := Real.pi / val
    let nearest := roundAway multPi
    if |nearest - multPi| < tol then
      match toInt32 nearest with
      | .ok denom => ofFrac 1 denom
      | .throw => .throw
      | .ub => .ub
    else
      match toInt32 (trunc (val / Real.pi / 2)) with
      | .ok k =>
        let v := val / Real.pi - 2 * k
        let v := if v > 1 then v - 2 else if v ≤ -1 then v + 2 else v
        .ok (modPi ⟨trunc (v * maxDenom) / maxDenom⟩)
      | .throw => .throw
      | .ub => .ub

/-! ### Specification -/

/-- In the interval of the class comment. -/
def InRange (a : PiRational) : Prop := -1 < a.frac ∧ a.frac ≤ 1

/-- Equal as angles. -/
def Cong (p q : ℚ) : Prop := ∃ k : ℤ, p - q = 2 * k

/-! ### Lemmas -/

theorem frac_eq (q : ℚ) : q = (q.num : ℚ) / q.den := (Rat.num_div_den q).symm

theorem den_pos (q : ℚ) : (0 : ℚ) < q.den := by exact_mod_cast q.den_pos

theorem num_eq (q : ℚ) : (q.num : ℚ) = q * q.den := by
  rw [eq_comm, Rat.mul_den_eq_num]

theorem lt_iff (a b : PiRational) : a.lt b ↔ a.frac < b.frac := by
  unfold lt
  have h1 := den_pos a.frac
  have h2 := den_pos b.frac
  rw [← @Int.cast_lt ℚ]
  push_cast
  rw [num_eq, num_eq]
  constructor
  · intro h
    by_contra hc
    rw [not_lt] at hc
    have := mul_le_mul_of_nonneg_right hc (mul_pos h1 h2).le
    nlinarith
  · intro h
    have := mul_lt_mul_of_pos_right h (mul_pos h1 h2)
    nlinarith

theorem le_iff (a b : PiRational) : a.le b ↔ a.frac ≤ b.frac := by
  have := lt_iff b a
  unfold lt at this
  unfold le
  rw [← not_lt, ← not_lt, this]

theorem ltInt_iff (a : PiRational) (k : ℤ) : a.ltInt k ↔ a.frac < k := by
  unfold ltInt
  rw [← @Int.cast_lt ℚ]
  push_cast
  rw [num_eq]
  exact mul_lt_mul_iff_of_pos_right (den_pos _)

theorem intLt_iff (k : ℤ) (a : PiRational) : intLt k a ↔ (k : ℚ) < a.frac := by
  unfold intLt
  rw [← @Int.cast_lt ℚ]
  push_cast
  rw [num_eq]
  exact mul_lt_mul_iff_of_pos_right (den_pos _)

theorem leInt_iff (a : PiRational) (k : ℤ) : a.leInt k ↔ a.frac ≤ k := by
  unfold leInt
  rw [← @Int.cast_le ℚ]
  push_cast
  rw [num_eq]
  exact mul_le_mul_iff_of_pos_right (den_pos _)

theorem intLe_iff (k : ℤ) (a : PiRational) : intLe k a ↔ (k : ℚ) ≤ a.frac := by
  unfold intLe
  rw [← @Int.cast_le ℚ]
  push_cast
  rw [num_eq]
  exact mul_le_mul_iff_of_pos_right (den_pos _)

theorem eq_iff (a b : PiRational) : a.eq b ↔ a = b := by
  unfold eq
  constructor
  · rintro ⟨h1, h2⟩
    cases a; cases b
    congr 1
    exact Rat.ext h1 h2
  · rintro rfl; exact ⟨rfl, rfl⟩

theorem eqInt_iff (a : PiRational) (k : ℤ) : a.eqInt k ↔ a.frac = k := by
  unfold eqInt
  constructor
  · rintro ⟨h1, h2⟩
    rw [frac_eq a.frac, h1, h2]; simp
  · intro h; rw [h]; simp

/-- `modPi` in terms of values. -/
theorem modPi_eq (a : PiRational) : a.modPi.frac =
    if 1 < a.frac then a.frac - 2 else if a.frac ≤ -1 then a.frac + 2 else a.frac := by
  unfold modPi gtInt
  have h := den_pos a.frac
  have hn := num_eq a.frac
  simp only [intLt_iff, leInt_iff, Int.cast_one, Int.cast_neg]
  split_ifs
  · push_cast
    rw [hn]; field_simp
  · push_cast
    rw [hn]; field_simp
  · rfl

theorem cong_refl (p : ℚ) : Cong p p := ⟨0, by simp⟩

theorem modPi_cong (a : PiRational) : Cong a.modPi.frac a.frac := by
  rw [modPi_eq]
  split_ifs
  · exact ⟨-1, by push_cast; ring⟩
  · exact ⟨1, by push_cast; ring⟩
  · exact cong_refl _

theorem modPi_range_iff (a : PiRational) : a.modPi.InRange ↔ -3 < a.frac ∧ a.frac ≤ 3 := by
  unfold InRange
  rw [modPi_eq]
  split_ifs with h1 h2
  · constructor
    · rintro ⟨h, h'⟩; constructor <;> linarith
    · rintro ⟨h, h'⟩; constructor <;> linarith
  · constructor
    · rintro ⟨h, h'⟩; constructor <;> linarith
    · rintro ⟨h, h'⟩; constructor <;> linarith
  · constructor
    · rintro ⟨h, h'⟩; constructor <;> linarith
    · rintro ⟨h, h'⟩
      exact ⟨not_le.1 h2, not_lt.1 h1⟩

theorem trunc_close (x : ℝ) : |(trunc x : ℝ) - x| < 1 := by
  unfold trunc
  rw [abs_lt]
  split_ifs
  · have h1 := Int.floor_le x; have h2 := Int.lt_floor_add_one x
    constructor <;> linarith
  · have h1 := Int.le_ceil x; have h2 := Int.ceil_lt_add_one x
    constructor <;> linarith

theorem trunc_bounds {x : ℝ} {M : ℤ} (hM : 0 ≤ M) (h1 : -M < x) (h2 : x ≤ M) : -M < trunc x ∧ trunc x ≤ M := by
  unfold trunc
  split_ifs with h
  · have hf := Int.floor_le x
    refine ⟨?_, ?_⟩
    · have h0 : 0 ≤ ⌊x⌋ := Int.floor_nonneg.2 h
      by_contra hc
      have hM0 : M = 0 := by omega
      subst hM0
      simp at h1 h2
      linarith
    · exact_mod_cast hf.trans h2
  · have hf := Int.le_ceil x
    refine ⟨by exact_mod_cast h1.trans_le hf, Int.ceil_le.2 h2⟩

/-- A real angle (in units of π) approximated by a rational one up to multiples of two. -/
def Approx (a : PiRational) (v : ℝ) (err : ℝ) : Prop := ∃ k : ℤ, |(a.frac : ℝ) - (v + 2 * k)| ≤ err

theorem Cong.approx {p : ℚ} {a : PiRational} (h : Cong a.frac p) {v err : ℝ} (hp : ∃ k : ℤ, |(p : ℝ) - (v + 2 * k)| ≤ err) :
    a.Approx v err := by
  obtain ⟨m, hm⟩ := h
  obtain ⟨k, hk⟩ := hp
  refine ⟨k + m, ?_⟩
  have e : (a.frac : ℝ) = p + 2 * m := by
    have : a.frac = p + 2 * m := by linarith
    rw [this]; push_cast; ring
  rw [e]
  push_cast
  rwa [show (p : ℝ) + 2 * m - (v + 2 * (k + m)) = p - (v + 2 * k) by ring]

theorem ofReal_spec {val : ℝ} {a : PiRational} (h : ofReal val = .ok a) :
    a.InRange ∧ a.Approx (val / Real.pi) (1 / 10 ^ 9) := by
  have hpi := Real.pi_gt_three
  have hpi0 := Real.pi_pos
  unfold ofReal at h
  split_ifs at h with h1
  · injection h with h
    subst h
    refine ⟨⟨by norm_num, by norm_num⟩, 0, ?_⟩
    have : |val / Real.pi| ≤ tol := by
      rw [abs_div, abs_of_pos hpi0, div_le_iff₀ hpi0]
      have : (0 : ℝ) ≤ tol := by unfold tol; positivity
      nlinarith
    push_cast
    rw [mul_zero, add_zero, zero_sub, abs_neg]
    refine this.trans ?_
    unfold tol; norm_num
  · have hv : val ≠ 0 := by
      intro hv; apply h1; rw [hv, abs_zero]; unfold tol; positivity
    simp only at h
    split_ifs at h with h2
    · cases hn : toInt32 (roundAway (Real.pi / val)) with
      | ok d =>
        rw [hn] at h
        simp only at h
        unfold toInt32 at hn
        split_ifs at hn
        injection hn with hn
        unfold ofFrac at h
        split_ifs at h with hd
        injection h with h
        subst h
        rw [hn] at h2
        have hd1 : (1 : ℝ) ≤ |(d : ℝ)| := by
          have : 1 ≤ |d| := Int.one_le_abs hd
          exact_mod_cast this
        have hdq : (1 : ℚ) ≤ |(d : ℚ)| := by
          have : 1 ≤ |d| := Int.one_le_abs hd
          exact_mod_cast this
        have hq : |1 / (d : ℚ)| ≤ 1 := by
          rw [abs_div, abs_one]
          exact (div_le_one (by linarith)).2 hdq
        have hq' := abs_le.1 hq
        refine ⟨(modPi_range_iff _).2 ⟨?_, ?_⟩, (modPi_cong _).approx ⟨0, ?_⟩⟩
        · push_cast; linarith
        · push_cast; linarith
        · push_cast
          set m := Real.pi / val with hm
          have hm0 : m ≠ 0 := div_ne_zero hpi0.ne' hv
          have hvm : val / Real.pi = 1 / m := by rw [hm]; field_simp
          have hmge : 1 / 2 ≤ |m| := by
            have := abs_sub_abs_le_abs_sub (d : ℝ) m
            have ht : tol ≤ 1 / 2 := by unfold tol; norm_num
            linarith
          have hd0 : (d : ℝ) ≠ 0 := by exact_mod_cast hd
          rw [hvm, mul_zero, add_zero, show (1 : ℝ) / d - 1 / m = (m - d) / (d * m) by field_simp, abs_div, abs_mul,
            div_le_iff₀ (by positivity)]
          rw [abs_sub_comm] at h2
          have : 1 / 2 ≤ |(d : ℝ)| * |m| := by nlinarith
          have ht : tol ≤ 1 / 10 ^ 9 * (1 / 2) := by unfold tol; norm_num
          nlinarith
      | throw => rw [hn] at h; exact absurd h (by simp)
      | ub => rw [hn] at h; exact absurd h (by simp)
    · cases hn : toInt32 (trunc (val / Real.pi / 2)) with
      | ok k =>
        rw [hn] at h
        simp only at h
        unfold toInt32 at hn
        split_ifs at hn
        injection hn with hn
        injection h with h
        have hk := trunc_close (val / Real.pi / 2)
        rw [hn, abs_lt] at hk
        set v0 := val / Real.pi - 2 * k with hv0
        have hv0r : -2 < v0 ∧ v0 < 2 := by constructor <;> (rw [hv0]; linarith [hk.1, hk.2])
        set v := if v0 > 1 then v0 - 2 else if v0 ≤ -1 then v0 + 2 else v0 with hvdef
        have hvr : (-1 < v ∧ v ≤ 1) ∧ ∃ m : ℤ, v = val / Real.pi + 2 * m := by
          rw [hvdef]
          split_ifs with c1 c2
          · exact ⟨⟨by linarith, by linarith [hv0r.2]⟩, -1 - k, by rw [hv0]; push_cast; ring⟩
          · exact ⟨⟨by linarith [hv0r.1], by linarith⟩, 1 - k, by rw [hv0]; push_cast; ring⟩
          · exact ⟨⟨not_le.1 c2, not_lt.1 c1⟩, -k, by rw [hv0]; push_cast; ring⟩
        obtain ⟨⟨hl, hu⟩, m, hm⟩ := hvr
        have hM : (0 : ℝ) < maxDenom := by unfold maxDenom; norm_num
        have hMq : (0 : ℚ) < maxDenom := by unfold maxDenom; norm_num
        obtain ⟨b1, b2⟩ := trunc_bounds (x := v * maxDenom) (M := maxDenom) (by unfold maxDenom; norm_num)
          (by nlinarith) (by nlinarith)
        have q1 : -1 < (trunc (v * maxDenom) : ℚ) / maxDenom := by
          rw [lt_div_iff₀ hMq]
          have : (-(maxDenom : ℤ) : ℚ) < (trunc (v * maxDenom) : ℚ) := by exact_mod_cast b1
          linarith
        have q2 : (trunc (v * maxDenom) : ℚ) / maxDenom ≤ 1 := by
          rw [div_le_one hMq]
          exact_mod_cast b2
        have hc := trunc_close (v * maxDenom)
        rw [← h]
        refine ⟨(modPi_range_iff _).2 ⟨by linarith, by linarith⟩, (modPi_cong _).approx ⟨m, ?_⟩⟩
        push_cast
        rw [← hm, show (trunc (v * maxDenom) : ℝ) / maxDenom - v = (trunc (v * maxDenom) - v * maxDenom) / maxDenom by
          field_simp, abs_div, abs_of_pos hM, div_le_iff₀ hM]
        have : (1 : ℝ) / 10 ^ 9 * maxDenom = 1 := by unfold maxDenom; norm_num
        rw [this]
        exact hc.le
      | throw => rw [hn] at h; exact absurd h (by simp)
      | ub => rw [hn] at h; exact absurd h (by simp)

end PiRational

end MQT.ZX
