/-
Arithmetic, printing and hashing of complex numbers.

Models `ComplexValue::printFormatted` and `ComplexValue::toString` for formatted output (`src/dd/ComplexValue.cpp` 104-228), the
operators `*` and `/` (`src/dd/ComplexValue.cpp` 254-297) and `hash<ComplexValue>` (`src/dd/ComplexValue.cpp` 304-313).  Numbers of type
`double` are real numbers, without rounding; the tolerance is given.

Printed is which of the forms `p/q`, `p/(q√2)`, `p/q π` or decimal is chosen and with which numbers.  Not modelled: the characters, in
particular the omission of `1` and `/1`; the sign of zero; `murmur64` and `combineHash`, that is the key is the pair of numbers given to
them.
-/
import Verif.DD.Fraction
import Verif.ZX.PiRational
import Mathlib.Analysis.Complex.Basic

set_option autoImplicit false

noncomputable section

open Classical

namespace MQT.DD.Print

open Fraction

/-! ### Model -/

/-- `ComplexValue`. -/
structure CV where
  r : ℝ
  i : ℝ

/-- `kahan` (ComplexValue.cpp 256-265). -/
def kahan (a b c d : ℝ) : ℝ :=
  let w := b * d
  let e := b * d - w
  let f := a * c + w
  f + e

/-- `operator*` (ComplexValue.cpp 268-277). -/
def CV.mul (a b : CV) : CV := ⟨kahan (-a.i) a.r b.i b.r, kahan a.i a.r b.r b.i⟩

/-- `operator/` (ComplexValue.cpp 283-297). -/
def CV.div (a b : CV) : CV :=
  let d := if |b.i| ≤ |b.r| then b.r * b.r + b.i * b.i else b.i * b.i + b.r * b.r
  ⟨kahan a.r a.i b.r b.i / d, kahan a.i (-a.r) b.r b.i / d⟩

/-- What is printed for a number that is not negative. -/
inductive Form
  | zero
  | frac (p q : ℕ)
  | sqrt (p q : ℕ)
  | pi (p q : ℕ)
  | dec (x : ℝ)

/-- What is printed for a number: the sign and the form. -/
structure Shown where
  neg : Bool
  form : Form

/-- `getLowestFraction` with the largest denominator set by default; the number of rounds is enough (`fraction_total`). -/
def fraction (eps x : ℝ) : Option (ℕ × ℕ) := lowest x eps 1024 (2 * 1024 + ⌈x⌉₊ + 3)

/-- The forms are tried in order (ComplexValue.cpp 112-182). -/
def formOf (eps x : ℝ) : Option Form :=
  if |x| ≤ eps then some .zero
  else (fraction eps x).bind fun f =>
    if |x - f.1 / f.2| ≤ eps then some (.frac f.1 f.2)
    else (fraction eps (x * √2)).bind fun f =>
      if |x * √2 - f.1 / f.2| ≤ eps then some (.sqrt f.1 f.2)
      else (fraction eps (x / Real.pi)).bind fun f =>
        if |x / Real.pi - f.1 / f.2| ≤ eps then some (.pi f.1 f.2) else some (.dec x)

/-- `printFormatted` (ComplexValue.cpp 104-182). -/
def printFormatted (eps num : ℝ) : Option Shown :=
  if num < 0 then (formOf eps (-num)).map (⟨true, ·⟩) else (formOf eps num).map (⟨false, ·⟩)

/-- What is printed for a complex number; `times re true` is `re(1+i)` and `times re false` is `re(1-i)`, where `re` may be missing. -/
inductive CShown
  | zero
  | re (s : Shown)
  | im (s : Shown)
  | both (re im : Shown)
  | times (re : Option Shown) (plus : Bool)

/-- `toString`, formatted (ComplexValue.cpp 184-228). -/
def toStringFormatted (eps real imag : ℝ) : Option CShown :=
  if |real| ≤ eps ∧ |imag| ≤ eps then some .zero
  else if ¬ |real| ≤ eps then
    (printFormatted eps real).bind fun s =>
      if ¬ |imag| ≤ eps then
        if |real - imag| ≤ eps then some (.times (some s) true)
        else if |real - -imag| ≤ eps then some (.times (some s) false)
        else (printFormatted eps imag).map (.both s ·)
      else some (.re s)
  else
    if |real - imag| ≤ eps then some (.times none true)
    else if |real - -imag| ≤ eps then some (.times none false)
    else (printFormatted eps imag).map .im

/-- `static_cast<std::size_t>(std::round(x / eps))`; `none`: undefined, the number does not fit. -/
def hashPart (eps x : ℝ) : Option ℕ :=
  let z := MQT.ZX.PiRational.roundAway (x / eps)
  if 0 ≤ z ∧ z < 2 ^ 64 then some z.toNat else none

/-- The numbers hashed by `hash<ComplexValue>` (ComplexValue.cpp 304-313); `none`: undefined. -/
def hashKey (eps : ℝ) (c : CV) : Option (ℕ × ℕ) := (hashPart eps c.r).bind fun a => (hashPart eps c.i).map fun b => (a, b)

/-- `approximatelyEquals` (ComplexValue.cpp 40-43), by which cached edges are compared (CachedEdge.hpp 60-62). -/
def CV.approx (eps : ℝ) (a b : CV) : Prop := |a.r - b.r| ≤ eps ∧ |a.i - b.i| ≤ eps

/-! ### Specification -/

def CV.toC (a : CV) : ℂ := ⟨a.r, a.i⟩

/-- The number that a text denotes. -/
def Form.value : Form → ℝ
  | .zero => 0
  | .frac p q => p / q
  | .sqrt p q => p / (q * √2)
  | .pi p q => p / q * Real.pi
  | .dec x => x

def Shown.value (s : Shown) : ℝ := if s.neg then -s.form.value else s.form.value

def CShown.value : CShown → ℂ
  | .zero => 0
  | .re s => s.value
  | .im s => s.value * Complex.I
  | .both s t => s.value + t.value * Complex.I
  | .times none plus => 1 + (if plus then 1 else -1) * Complex.I
  | .times (some s) plus => s.value * (1 + (if plus then 1 else -1) * Complex.I)

/-- A fraction with a denominator up to 1024 is within the tolerance. -/
def Near (eps y : ℝ) : Prop := ∃ p q : ℕ, 1 ≤ q ∧ q ≤ 1024 ∧ |y - p / q| ≤ eps

/-- A fraction in lowest terms within the tolerance, with the least denominator. -/
def Least (eps y : ℝ) (p q : ℕ) : Prop := Nat.Coprime p q ∧ 1 ≤ q ∧ q ≤ 1024 ∧ |y - p / q| ≤ eps ∧
  ∀ p' q' : ℕ, 1 ≤ q' → q' ≤ 1024 → |y - p' / q'| ≤ eps → q ≤ q'

/-- The form that a number greater or equal to 0 should be printed in: the first that applies. -/
def Form.Right (eps x : ℝ) : Form → Prop
  | .zero => x ≤ eps
  | .frac p q => eps < x ∧ Least eps x p q
  | .sqrt p q => eps < x ∧ ¬ Near eps x ∧ Least eps (x * √2) p q
  | .pi p q => eps < x ∧ ¬ Near eps x ∧ ¬ Near eps (x * √2) ∧ Least eps (x / Real.pi) p q
  | .dec y => y = x ∧ eps < x ∧ ¬ Near eps x ∧ ¬ Near eps (x * √2) ∧ ¬ Near eps (x / Real.pi)

/-! ### Lemmas -/

theorem fraction_total (eps x : ℝ) : ∃ f, fraction eps x = some f := by
  obtain ⟨r, hr, -⟩ := search_spec (mx := 1024) (by norm_num) _ _ _ (Inv.start x eps 1024) (Nat.lt_succ_self _)
  exact ⟨r, search_le (by simp only; omega) hr⟩

theorem formOf_spec {eps : ℝ} (he : 0 ≤ eps) (x : ℝ) : ∃ f, formOf eps x = some f ∧ |f.value - x| ≤ eps * Real.pi := by
  have hp := Real.pi_gt_three
  have h1 : eps ≤ eps * Real.pi := le_mul_of_one_le_right he (by linarith)
  have hs : (0 : ℝ) < √2 := by positivity
  have hs1 : (1 : ℝ) ≤ √2 := by
    rw [Real.one_le_sqrt]
    norm_num
  unfold formOf
  split_ifs with h0
  · exact ⟨_, rfl, by simp only [Form.value, zero_sub, abs_neg]; linarith⟩
  · obtain ⟨f, hf⟩ := fraction_total eps x
    rw [hf, Option.bind_some]
    split_ifs with h2
    · exact ⟨_, rfl, by rw [abs_sub_comm]; simp only [Form.value]; linarith⟩
    · obtain ⟨g, hg⟩ := fraction_total eps (x * √2)
      rw [hg, Option.bind_some]
      split_ifs with h3
      · refine ⟨_, rfl, ?_⟩
        rw [abs_sub_comm]
        simp only [Form.value]
        have e : x - g.1 / (g.2 * √2) = (x * √2 - g.1 / g.2) / √2 := by field_simp
        rw [e, abs_div, abs_of_pos hs]
        have : |x * √2 - g.1 / g.2| / √2 ≤ |x * √2 - g.1 / g.2| := div_le_self (abs_nonneg _) hs1
        linarith
      · obtain ⟨k, hk⟩ := fraction_total eps (x / Real.pi)
        rw [hk, Option.bind_some]
        split_ifs with h4
        · refine ⟨_, rfl, ?_⟩
          rw [abs_sub_comm]
          simp only [Form.value]
          have e : x - k.1 / k.2 * Real.pi = (x / Real.pi - k.1 / k.2) * Real.pi := by field_simp
          rw [e, abs_mul, abs_of_pos Real.pi_pos]
          exact mul_le_mul_of_nonneg_right h4 Real.pi_pos.le
        · refine ⟨_, rfl, ?_⟩
          simp only [Form.value, sub_self, abs_zero]
          positivity

theorem print_spec {eps : ℝ} (he : 0 ≤ eps) (x : ℝ) : ∃ s, printFormatted eps x = some s ∧ |s.value - x| ≤ eps * Real.pi := by
  unfold printFormatted
  split_ifs with h
  · obtain ⟨f, hf, hv⟩ := formOf_spec he (-x)
    refine ⟨_, by rw [hf]; rfl, ?_⟩
    simp only [Shown.value, if_true]
    rw [← abs_neg]
    ring_nf at hv ⊢
    exact hv
  · obtain ⟨f, hf, hv⟩ := formOf_spec he x
    exact ⟨_, by rw [hf]; rfl, by simpa [Shown.value] using hv⟩

end MQT.DD.Print
