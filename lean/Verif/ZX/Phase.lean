/-
Phases of ZX diagrams: `PiExpression = sym::Expression<double, PiRational>` (ZXDefinitions.hpp 78).

Simplification: the sum of multiples of variables is a finitely supported function and its addition is exact,
without the tolerance of `Expression::operator+=` (which is modelled in `Verif/IR/Expression.lean`; `ofExpr_add`
says when the two agree).
-/
import Mathlib.Data.Finsupp.Basic
import Mathlib.Analysis.SpecialFunctions.Complex.Circle
import Verif.IR.Expression

set_option autoImplicit false

noncomputable section

open Classical

namespace MQT.ZX

structure Phase where
  sym : ℕ →₀ ℝ
  const : PiRational

namespace Phase

/-! ### Model -/

/-- `PiExpression(PiRational(n, d))`, for a nonzero denominator. -/
def ofRat (q : ℚ) : Phase := ⟨0, PiRational.modPi ⟨q⟩⟩

/-- `PiExpression()`. -/
def zero : Phase := ⟨0, ⟨0⟩⟩

/-- `operator+=` (Expression.hpp 400-434). -/
def add (a b : Phase) : Phase := ⟨a.sym + b.sym, a.const.add b.const⟩

/-- `operator-()` (Expression.hpp 563-571). -/
def neg (a : Phase) : Phase := ⟨-a.sym, a.const.neg⟩

/-- `isZero` (Expression.hpp 381-383). -/
def isZero (a : Phase) : Prop := a.sym = 0 ∧ a.const.isZero

/-- `isConstant` (Expression.hpp 389). -/
def isConstant (a : Phase) : Prop := a.sym = 0

/-- Utils.cpp: `isPauli`, `isClifford`, `isProperClifford`. -/
def isPauli (a : Phase) : Prop := a.isConstant ∧ a.const.isInteger
def isClifford (a : Phase) : Prop := a.isConstant ∧ (a.const.isInteger ∨ a.const.frac.den = 2)
def isProperClifford (a : Phase) : Prop := a.isConstant ∧ a.const.frac.den = 2

/-! ### Specification -/

/-- The angle denoted under an assignment of the variables. -/
def rad (ρ : ℕ → ℝ) (a : Phase) : ℝ := (a.sym.sum fun v c => c * ρ v) + a.const.frac * Real.pi

/-- The number of modulus one denoted. -/
def u (ρ : ℕ → ℝ) (a : Phase) : ℂ := Complex.exp (a.rad ρ * Complex.I)

/-! ### Lemmas -/

theorem u_ne_zero (ρ : ℕ → ℝ) (a : Phase) : a.u ρ ≠ 0 := Complex.exp_ne_zero _

theorem exp_two_pi (x : ℝ) (k : ℤ) : Complex.exp (((x + k * (2 * Real.pi) : ℝ) : ℂ) * Complex.I) =
    Complex.exp ((x : ℂ) * Complex.I) := by
  have : (((x + k * (2 * Real.pi) : ℝ) : ℂ) * Complex.I) = (x : ℂ) * Complex.I + k * (2 * Real.pi * Complex.I) := by
    push_cast; ring
  rw [this, Complex.exp_add, Complex.exp_int_mul_two_pi_mul_I, mul_one]

theorem cong_cast {p q : ℚ} (h : PiRational.Cong p q) : ∃ k : ℤ, (p : ℝ) = q + 2 * k := by
  obtain ⟨k, hk⟩ := h
  refine ⟨k, ?_⟩
  have := congrArg (fun q : ℚ => (q : ℝ)) hk
  push_cast at this
  linarith

theorem u_add (ρ : ℕ → ℝ) (a b : Phase) : (a.add b).u ρ = a.u ρ * b.u ρ := by
  obtain ⟨k, hk⟩ := cong_cast (PiRational.modPi_cong ⟨a.const.frac + b.const.frac⟩)
  have hr : (a.add b).rad ρ = (a.rad ρ + b.rad ρ) + k * (2 * Real.pi) := by
    unfold rad add
    simp only
    rw [Finsupp.sum_add_index' (fun _ => zero_mul _) (fun _ _ _ => add_mul _ _ _)]
    show _ + ((PiRational.modPi ⟨a.const.frac + b.const.frac⟩).frac : ℝ) * Real.pi = _
    rw [hk]
    push_cast
    ring
  unfold u
  rw [hr, exp_two_pi, ← Complex.exp_add]
  congr 1
  push_cast
  ring

theorem u_neg (ρ : ℕ → ℝ) (a : Phase) : a.neg.u ρ = (a.u ρ)⁻¹ := by
  have e : ((-a.const.frac.num : ℤ) / (a.const.frac.den : ℤ) : ℚ) = -a.const.frac := by
    push_cast
    rw [neg_div, ← PiRational.frac_eq]
  obtain ⟨k, hk⟩ := cong_cast (PiRational.modPi_cong ⟨-a.const.frac⟩)
  have hr : a.neg.rad ρ = -a.rad ρ + k * (2 * Real.pi) := by
    unfold rad neg
    simp only
    rw [Finsupp.sum_neg_index (fun _ => zero_mul _)]
    show _ + ((PiRational.modPi ⟨_⟩).frac : ℝ) * Real.pi = _
    rw [e, hk]
    simp only [neg_mul, Finsupp.sum_neg]
    push_cast
    ring
  unfold u
  rw [hr, exp_two_pi, ← Complex.exp_neg]
  congr 1
  push_cast
  ring

theorem u_zero (ρ : ℕ → ℝ) : zero.u ρ = 1 := by simp [u, rad, zero]

theorem u_ofRat (ρ : ℕ → ℝ) (q : ℚ) : (ofRat q).u ρ = Complex.exp ((q * Real.pi : ℝ) * Complex.I) := by
  obtain ⟨k, hk⟩ := cong_cast (PiRational.modPi_cong ⟨q⟩)
  have hr : (ofRat q).rad ρ = q * Real.pi + k * (2 * Real.pi) := by
    unfold rad ofRat
    simp only [Finsupp.sum_zero_index]
    rw [hk]
    ring
  unfold u
  rw [hr, exp_two_pi]

theorem u_of_isZero (ρ : ℕ → ℝ) {a : Phase} (h : a.isZero) : a.u ρ = 1 := by
  have h2 : a.const.frac = 0 := Rat.num_eq_zero.1 h.2
  unfold u rad
  rw [h.1, h2]
  simp

theorem u_pi (ρ : ℕ → ℝ) : (ofRat 1).u ρ = -1 := by
  rw [u_ofRat]
  simp [Complex.exp_pi_mul_I]

/-- Pauli phases in range are 0 or π. -/
theorem pauli_cases {a : Phase} (h : a.isPauli) (hr : a.const.InRange) :
    (a.isZero ∧ ∀ ρ, a.u ρ = 1) ∨ (¬ a.isZero ∧ ∀ ρ, a.u ρ = -1) := by
  obtain ⟨h1, h2⟩ := h
  have hn : a.const.frac = a.const.frac.num := by
    conv_lhs => rw [PiRational.frac_eq a.const.frac]
    rw [h2]; simp
  obtain ⟨r1, r2⟩ := hr
  rw [hn] at r1 r2
  have r1' : -1 < a.const.frac.num := by exact_mod_cast r1
  have r2' : a.const.frac.num ≤ 1 := by exact_mod_cast r2
  have : a.const.frac.num = 0 ∨ a.const.frac.num = 1 := by omega
  rcases this with h0 | h0
  · exact .inl ⟨⟨h1, h0⟩, fun ρ => u_of_isZero ρ ⟨h1, h0⟩⟩
  · refine .inr ⟨fun h => by have := h.2; unfold PiRational.isZero at this; omega, fun ρ => ?_⟩
    unfold u rad
    have hc : a.sym = 0 := h1
    rw [hc, hn, h0]
    simp [Complex.exp_pi_mul_I]

/-- Proper Clifford phases in range are ±π/2. -/
theorem clifford_cases {a : Phase} (h : a.isProperClifford) (hr : a.const.InRange) :
    (a.const.frac.num = 1 ∧ ∀ ρ, a.u ρ = Complex.I) ∨ (a.const.frac.num = -1 ∧ ∀ ρ, a.u ρ = -Complex.I) := by
  obtain ⟨h1, h2⟩ := h
  have hc : a.sym = 0 := h1
  have hn : a.const.frac = a.const.frac.num / 2 := by
    conv_lhs => rw [PiRational.frac_eq a.const.frac]
    rw [h2]; simp
  obtain ⟨r1, r2⟩ := hr
  rw [hn] at r1 r2
  have r1' : (-2 : ℚ) < a.const.frac.num := by linarith
  have r2' : (a.const.frac.num : ℚ) ≤ 2 := by linarith
  have r1'' : -2 < a.const.frac.num := by exact_mod_cast r1'
  have r2'' : a.const.frac.num ≤ 2 := by exact_mod_cast r2'
  have hred := a.const.frac.reduced
  rw [h2] at hred
  have hodd : a.const.frac.num ≠ 0 ∧ a.const.frac.num ≠ 2 := by
    constructor
    · intro h; rw [h] at hred; simp at hred
    · intro h; rw [h] at hred; simp at hred
  have : a.const.frac.num = 1 ∨ a.const.frac.num = -1 := by omega
  rcases this with h0 | h0
  · refine .inl ⟨h0, fun ρ => ?_⟩
    unfold u rad
    rw [hc, hn, h0]
    have : (((Finsupp.sum (0 : ℕ →₀ ℝ) fun v c => c * ρ v) + (((1 : ℤ) : ℚ) / 2 : ℚ) * Real.pi : ℝ) : ℂ) * Complex.I =
        Real.pi / 2 * Complex.I := by simp; ring
    rw [this, Complex.exp_pi_div_two_mul_I]
  · refine .inr ⟨h0, fun ρ => ?_⟩
    unfold u rad
    rw [hc, hn, h0]
    have : (((Finsupp.sum (0 : ℕ →₀ ℝ) fun v c => c * ρ v) + (((-1 : ℤ) : ℚ) / 2 : ℚ) * Real.pi : ℝ) : ℂ) * Complex.I =
        -(Real.pi / 2 * Complex.I) := by simp; ring
    rw [this, Complex.exp_neg, Complex.exp_pi_div_two_mul_I, Complex.inv_I]

theorem add_inRange {a b : Phase} (ha : a.const.InRange) (hb : b.const.InRange) : (a.add b).const.InRange :=
  (PiRational.modPi_range_iff _).2 ⟨by linarith [ha.1, hb.1], by linarith [ha.2, hb.2]⟩

theorem neg_inRange {a : Phase} (ha : a.const.InRange) : a.neg.const.InRange := by
  have e : ((-a.const.frac.num : ℤ) / (a.const.frac.den : ℤ) : ℚ) = -a.const.frac := by
    push_cast
    rw [neg_div, ← PiRational.frac_eq]
  show (PiRational.modPi ⟨_⟩).InRange
  rw [e]
  exact (PiRational.modPi_range_iff _).2 ⟨by simp only; linarith [ha.2], by simp only; linarith [ha.1]⟩

/-! Agreement with the model of `Expression`. -/

/-- The phase an expression stands for. -/
def ofExpr (a : Sym.PiExpression) : Phase := ⟨(a.terms.map fun t => Finsupp.single t.var t.coeff).sum, a.const⟩

theorem ofExpr_apply (ts : List Sym.Term) (v : ℕ) :
    (ts.map fun t => Finsupp.single t.var t.coeff).sum v =
      Sym.Expression.termsVal (fun w => if w = v then 1 else 0) ts := by
  induction ts with
  | nil => simp [Sym.Expression.termsVal]
  | cons t r ih =>
    rw [List.map_cons, List.sum_cons, Finsupp.add_apply, ih, Sym.Expression.termsVal_cons, Finsupp.single_apply]
    split_ifs <;> simp

theorem modPi_of_inRange {a : PiRational} (h : a.InRange) : a.modPi = a := by
  unfold PiRational.modPi
  have h1 : ¬ a.gtInt 1 := by
    unfold PiRational.gtInt; rw [PiRational.intLt_iff]; push_cast; exact not_lt.2 h.2
  have h2 : ¬ a.leInt (-1) := by rw [PiRational.leInt_iff]; push_cast; exact not_le.2 h.1
  rw [if_neg h1, if_neg h2]

/-- Exact addition of phases is what `operator+=` computes, if no coefficients nearly cancel. -/
theorem ofExpr_add {a b c : Sym.PiExpression} (ha : a.WF) (hb : b.WF) (ra : a.const.InRange) (rb : b.const.InRange)
    (hn : Sym.Expression.NoNearCancel a.terms b.terms) (h : a.add b = .ok c) :
    ofExpr c = (ofExpr a).add (ofExpr b) := by
  have key : ∀ x y : Phase, (∀ v, x.sym v = y.sym v) → x.const = y.const → x = y := by
    intro x y h1 h2
    cases x; cases y
    simp only at h1 h2
    rw [h2, Finsupp.ext h1]
  have hz : ∀ x : PiRational, x.InRange → (⟨0⟩ : PiRational).add x = x ∧ x.add ⟨0⟩ = x := by
    intro x hx
    unfold PiRational.add
    rw [zero_add, add_zero]
    exact ⟨modPi_of_inRange hx, modPi_of_inRange hx⟩
  unfold Sym.Expression.add at h
  split_ifs at h with h1 h2
  · injection h with h
    subst h
    refine key _ _ (fun v => ?_) ?_
    · show _ = ((ofExpr a).sym + (ofExpr b).sym) v
      have : (ofExpr a).sym = 0 := by unfold ofExpr; simp [h1.1]
      rw [this, zero_add]
    · show b.const = a.const.add b.const
      rw [h1.2]; exact (hz _ rb).1.symm
  · injection h with h
    subst h
    refine key _ _ (fun v => ?_) ?_
    · show _ = ((ofExpr a).sym + (ofExpr b).sym) v
      have : (ofExpr b).sym = 0 := by unfold ofExpr; simp [h2.1]
      rw [this, add_zero]
    · show a.const = a.const.add b.const
      rw [h2.2]; exact (hz _ ra).2.symm
  · split at h
    · rename_i ts hts
      injection h with h
      subst h
      refine key _ _ (fun v => ?_) rfl
      show ((ts.map fun t => Finsupp.single t.var t.coeff).sum) v = ((ofExpr a).sym + (ofExpr b).sym) v
      rw [Finsupp.add_apply]
      unfold ofExpr
      rw [ofExpr_apply, ofExpr_apply, ofExpr_apply]
      exact Sym.Expression.addTerms_exact a.terms ha b.terms hb hn hts _
    · simp at h
    · simp at h

theorem ofExpr_rad (ρ : ℕ → ℝ) (a : Sym.PiExpression) : (ofExpr a).rad ρ = a.val ρ := by
  unfold rad Sym.Expression.val ofExpr
  simp only
  congr 1
  generalize a.terms = ts
  induction ts with
  | nil => simp [Sym.Expression.termsVal]
  | cons t r ih =>
    rw [List.map_cons, List.sum_cons, Finsupp.sum_add_index' (fun _ => zero_mul _) (fun _ _ _ => add_mul _ _ _), ih,
      Sym.Expression.termsVal_cons, Finsupp.sum_single_index (zero_mul _)]

end Phase

end MQT.ZX
