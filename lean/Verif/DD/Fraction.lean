/-
The fraction close to a number, used to print numbers.

Models `ComplexValue::getLowestFraction` (`src/dd/ComplexValue.cpp` 70-103).  Numbers of type `double` are real numbers and those of
type `uint64_t` natural numbers; the tolerance `RealNumber::eps` is given, since `setTolerance` changes it.
-/
import Mathlib.Algebra.Order.Archimedean.Real.Basic
import Mathlib.Data.Nat.Prime.Basic
import Mathlib.Tactic.Linarith
import Mathlib.Tactic.LinearCombination
import Mathlib.Tactic.FieldSimp
import Mathlib.Tactic.Positivity
import Mathlib.Algebra.Order.Floor.Semiring

set_option autoImplicit false

noncomputable section

open Classical

namespace MQT.DD.Fraction

/-! ### Model -/

/-- The loop (ComplexValue.cpp 78-102), at most `k` rounds; `none`: it takes more. -/
def search (x eps : ℝ) (mx : ℕ) : ℕ → ℕ × ℕ → ℕ × ℕ → Option (ℕ × ℕ)
  | 0, _, _ => none
  | k + 1, l, u =>
    if l.2 ≤ mx ∧ u.2 ≤ mx then
      let num := l.1 + u.1
      let den := l.2 + u.2
      if |x - num / den| ≤ eps then
        if den ≤ mx then some (num, den) else if l.2 < u.2 then some u else some l
      else if (num : ℝ) / den < x then search x eps mx k (num, den) u
      else search x eps mx k l (num, den)
    else if mx < l.2 then some u else some l

/-- `getLowestFraction` (ComplexValue.cpp 70-103), at most `k` rounds. -/
def lowest (x eps : ℝ) (mx k : ℕ) : Option (ℕ × ℕ) := search x eps mx k (0, 1) (1, 0)

/-! ### Specification -/

/-- `p / q` is as close to `x` as the tolerance asks for. -/
def Close (x eps : ℝ) (p q : ℕ) : Prop := 1 ≤ q ∧ |x - p / q| ≤ eps

/-! ### Invariant of the loop -/

structure Inv (x eps : ℝ) (mx : ℕ) (l u : ℕ × ℕ) : Prop where
  det : u.1 * l.2 = l.1 * u.2 + 1
  pos : 1 ≤ l.2
  one : l.2 ≤ mx ∨ u.2 ≤ mx
  low : l = (0, 1) ∨ (l.1 : ℝ) < (x - eps) * l.2
  high : (x + eps) * u.2 < u.1

theorem Inv.start (x eps : ℝ) (mx : ℕ) : Inv x eps mx (0, 1) (1, 0) :=
  ⟨rfl, le_refl _, Or.inr (Nat.zero_le _), Or.inl rfl, by simp⟩

variable {x eps : ℝ} {mx : ℕ} {l u : ℕ × ℕ}

theorem Inv.upper_pos (h : Inv x eps mx l u) (hl : 1 < l.2) : 1 ≤ u.2 := by
  rcases Nat.eq_zero_or_pos u.2 with h0 | h0
  · have := h.det
    rw [h0, Nat.mul_zero] at this
    have := Nat.eq_one_of_mul_eq_one_left this
    omega
  · exact h0

theorem Inv.coprime_lower (h : Inv x eps mx l u) : Nat.Coprime l.1 l.2 := by
  have hd : Nat.gcd l.1 l.2 ∣ l.1 * u.2 + 1 := h.det ▸ Dvd.dvd.mul_left (Nat.gcd_dvd_right _ _) _
  exact Nat.dvd_one.1 ((Nat.dvd_add_right (Dvd.dvd.mul_right (Nat.gcd_dvd_left _ _) _)).1 hd)

theorem Inv.coprime_upper (h : Inv x eps mx l u) : Nat.Coprime u.1 u.2 := by
  have hd : Nat.gcd u.1 u.2 ∣ l.1 * u.2 + 1 := h.det ▸ Dvd.dvd.mul_right (Nat.gcd_dvd_left _ _) _
  exact Nat.dvd_one.1 ((Nat.dvd_add_right (Dvd.dvd.mul_left (Nat.gcd_dvd_right _ _) _)).1 hd)

theorem Inv.den_pos (h : Inv x eps mx l u) : (0 : ℝ) < ((l.2 + u.2 : ℕ) : ℝ) := by
  have := h.pos
  exact_mod_cast (by omega : 0 < l.2 + u.2)

theorem Inv.lower (h : Inv x eps mx l u) (hu : u.2 ≤ mx) (hn : ¬ |x - (l.1 + u.1 : ℕ) / (l.2 + u.2 : ℕ)| ≤ eps)
    (hx : ((l.1 + u.1 : ℕ) : ℝ) / (l.2 + u.2 : ℕ) < x) : Inv x eps mx (l.1 + u.1, l.2 + u.2) u := by
  refine ⟨?_, ?_, Or.inr hu, Or.inr ?_, h.high⟩
  · have := h.det
    simp only
    linarith
  · have := h.pos
    simp only
    omega
  · rw [abs_of_pos (by linarith)] at hn
    exact (div_lt_iff₀ h.den_pos).1 (by linarith)

theorem Inv.upper (h : Inv x eps mx l u) (hl : l.2 ≤ mx) (hn : ¬ |x - (l.1 + u.1 : ℕ) / (l.2 + u.2 : ℕ)| ≤ eps)
    (hx : ¬ ((l.1 + u.1 : ℕ) : ℝ) / (l.2 + u.2 : ℕ) < x) : Inv x eps mx l (l.1 + u.1, l.2 + u.2) := by
  refine ⟨?_, h.pos, Or.inl hl, h.low, ?_⟩
  · have := h.det
    simp only
    linarith
  · rw [abs_of_nonpos (by linarith)] at hn
    exact (lt_div_iff₀ h.den_pos).1 (by linarith)

/-- A close fraction has at least the denominator of the next one that is tried. -/
theorem Inv.between (h : Inv x eps mx l u) (hx : eps < x) {p q : ℕ} (hc : Close x eps p q) : l.2 + u.2 ≤ q := by
  obtain ⟨hq, hc⟩ := hc
  rw [abs_le] at hc
  have hq' : (0 : ℝ) < q := by exact_mod_cast hq
  have h1 : (x - eps) * q ≤ p := (le_div_iff₀ hq').1 (by linarith)
  have h2 : (p : ℝ) ≤ (x + eps) * q := (div_le_iff₀ hq').1 (by linarith)
  have hl' : (0 : ℝ) < l.2 := by exact_mod_cast h.pos
  have e1 : l.1 * q < p * l.2 := by
    rcases h.low with e | e
    · rw [e]
      have : (0 : ℝ) < p := lt_of_lt_of_le (mul_pos (by linarith) hq') h1
      have : 0 < p := by exact_mod_cast this
      simpa using this
    · have : (l.1 : ℝ) * q < p * l.2 := by
        calc (l.1 : ℝ) * q < (x - eps) * l.2 * q := mul_lt_mul_of_pos_right e hq'
          _ = (x - eps) * q * l.2 := by ring
          _ ≤ p * l.2 := mul_le_mul_of_nonneg_right h1 hl'.le
      exact_mod_cast this
  have e2 : p * u.2 < u.1 * q := by
    have : (p : ℝ) * u.2 < u.1 * q := by
      calc (p : ℝ) * u.2 ≤ (x + eps) * q * u.2 := mul_le_mul_of_nonneg_right h2 (Nat.cast_nonneg _)
        _ = (x + eps) * u.2 * q := by ring
        _ < u.1 * q := mul_lt_mul_of_pos_right h.high hq'
    exact_mod_cast this
  obtain ⟨a, ha⟩ := Nat.exists_eq_add_of_lt e1
  obtain ⟨b, hb⟩ := Nat.exists_eq_add_of_lt e2
  have hd := h.det
  have key : q = l.2 * (b + 1) + u.2 * (a + 1) := by
    have z1 : (p : ℤ) * l.2 = l.1 * q + a + 1 := by exact_mod_cast ha
    have z2 : (u.1 : ℤ) * q = p * u.2 + b + 1 := by exact_mod_cast hb
    have z3 : (u.1 : ℤ) * l.2 = l.1 * u.2 + 1 := by exact_mod_cast hd
    have : (q : ℤ) = l.2 * (b + 1) + u.2 * (a + 1) := by
      linear_combination (-(q : ℤ)) * z3 + (l.2 : ℤ) * z2 + (u.2 : ℤ) * z1
    exact_mod_cast this
  rw [key]
  exact Nat.add_le_add (Nat.le_mul_of_pos_right _ (Nat.succ_pos _)) (Nat.le_mul_of_pos_right _ (Nat.succ_pos _))

/-! ### The result -/

/-- In lowest terms, with a denominator that is allowed. -/
def Lowest (mx : ℕ) (r : ℕ × ℕ) : Prop := Nat.Coprime r.1 r.2 ∧ 1 ≤ r.2 ∧ r.2 ≤ mx

/-- If there is a close fraction, the result is one, with the least denominator. -/
def Best (x eps : ℝ) (mx : ℕ) (r : ℕ × ℕ) : Prop := ∀ p q, q ≤ mx → Close x eps p q → Close x eps r.1 r.2 ∧ r.2 ≤ q

theorem search_spec (hm : 1 ≤ mx) : ∀ (k : ℕ) (l u : ℕ × ℕ), Inv x eps mx l u →
    (mx + 1 - l.2) + (mx + 1 - u.2) + (⌈x⌉₊ + 1 - l.1) < k →
    ∃ r, search x eps mx k l u = some r ∧ Lowest mx r ∧ (eps < x → Best x eps mx r)
  | 0, _, _, _, hk => absurd hk (Nat.not_lt_zero _)
  | k + 1, l, u, h, hk => by
    have hp := h.pos
    unfold search
    by_cases hg : l.2 ≤ mx ∧ u.2 ≤ mx
    · rw [if_pos hg]
      simp only
      by_cases hc : |x - (l.1 + u.1 : ℕ) / (l.2 + u.2 : ℕ)| ≤ eps
      · rw [if_pos hc]
        have hcl : Close x eps (l.1 + u.1) (l.2 + u.2) := ⟨by omega, hc⟩
        by_cases hd : l.2 + u.2 ≤ mx
        · rw [if_pos hd]
          refine ⟨_, rfl, ⟨?_, by simp only; omega, hd⟩, fun hx p q _ hq => ⟨hcl, h.between hx hq⟩⟩
          have hdet := h.det
          have hg : Nat.gcd (l.1 + u.1) (l.2 + u.2) ∣ l.1 * (l.2 + u.2) + 1 := by
            rw [show l.1 * (l.2 + u.2) + 1 = (l.1 + u.1) * l.2 by linarith]
            exact Dvd.dvd.mul_right (Nat.gcd_dvd_left _ _) _
          exact Nat.dvd_one.1 ((Nat.dvd_add_right (Dvd.dvd.mul_left (Nat.gcd_dvd_right _ _) _)).1 hg)
        · rw [if_neg hd]
          have hb : ∀ r, eps < x → Best x eps mx r := fun r hx p q hq hcq => absurd (h.between hx hcq) (by omega)
          by_cases hlu : l.2 < u.2
          · rw [if_pos hlu]
            exact ⟨u, rfl, ⟨h.coprime_upper, by omega, hg.2⟩, hb u⟩
          · rw [if_neg hlu]
            exact ⟨l, rfl, ⟨h.coprime_lower, hp, hg.1⟩, hb l⟩
      · rw [if_neg hc]
        by_cases hx : ((l.1 + u.1 : ℕ) : ℝ) / (l.2 + u.2 : ℕ) < x
        · rw [if_pos hx]
          refine search_spec hm k _ _ (h.lower hg.2 hc hx) ?_
          simp only
          rcases Nat.eq_zero_or_pos u.2 with h0 | h0
          · have hd := h.det
            rw [h0, Nat.mul_zero, zero_add] at hd
            have h1 := Nat.eq_one_of_mul_eq_one_left hd
            have h2 := Nat.eq_one_of_mul_eq_one_right hd
            rw [h0, h1, h2] at hx
            have h3 : ((l.1 + 1 : ℕ) : ℝ) < ⌈x⌉₊ := lt_of_lt_of_le (by simpa using hx) (Nat.le_ceil x)
            have h4 : l.1 + 1 < ⌈x⌉₊ := by exact_mod_cast h3
            omega
          · omega
        · rw [if_neg hx]
          refine search_spec hm k _ _ (h.upper hg.1 hc hx) ?_
          simp only
          omega
    · rw [if_neg hg]
      have hb : ∀ r, eps < x → Best x eps mx r := fun r hx p q hq hcq => absurd (h.between hx hcq) (by omega)
      by_cases hl : mx < l.2
      · rw [if_pos hl]
        exact ⟨u, rfl, ⟨h.coprime_upper, h.upper_pos (by omega), by rcases h.one with h1 | h1 <;> omega⟩, hb u⟩
      · rw [if_neg hl]
        exact ⟨l, rfl, ⟨h.coprime_lower, hp, by omega⟩, hb l⟩

theorem search_mono : ∀ (k : ℕ) (l u r : ℕ × ℕ), search x eps mx k l u = some r → search x eps mx (k + 1) l u = some r
  | 0, _, _, _, h => by cases h
  | k + 1, l, u, r, h => by
    unfold search at h ⊢
    simp only at h ⊢
    split_ifs at h ⊢
    · exact h
    · exact h
    · exact h
    · exact search_mono k _ _ r h
    · exact search_mono k _ _ r h
    · exact h
    · exact h

theorem search_le {k k' : ℕ} (hk : k ≤ k') {r : ℕ × ℕ} (h : search x eps mx k l u = some r) : search x eps mx k' l u = some r := by
  induction hk with
  | refl => exact h
  | step _ ih => exact search_mono _ _ _ _ ih

/-- Numbers up to the tolerance are approximated by 0. -/
theorem search_zero (hm : 1 ≤ mx) (hx : 0 ≤ x) (hxe : x ≤ eps) (he : 2 * eps * (mx + 1) < 1) : ∀ (k j : ℕ), j ≤ mx + 1 →
    mx + 1 - j < k → search x eps mx k (0, 1) (1, j) = some (0, 1)
  | 0, _, _, hk => absurd hk (Nat.not_lt_zero _)
  | k + 1, j, hj, hk => by
    unfold search
    by_cases hg : j ≤ mx
    · have hj' : (0 : ℝ) < ((1 + j : ℕ) : ℝ) := by exact_mod_cast (by omega : 0 < 1 + j)
      have hjm : ((1 + j : ℕ) : ℝ) ≤ mx + 1 := by exact_mod_cast (by omega : 1 + j ≤ mx + 1)
      have h1 : 2 * eps < 1 / ((1 + j : ℕ) : ℝ) := by
        rw [lt_div_iff₀ hj']
        exact lt_of_le_of_lt (mul_le_mul_of_nonneg_left hjm (by linarith)) he
      rw [if_pos ⟨hm, hg⟩]
      simp only [zero_add, Nat.cast_one]
      rw [if_neg (fun h => by rw [abs_le] at h; linarith [h.1]), if_neg (by linarith), Nat.add_comm 1 j]
      exact search_zero hm hx hxe he k (j + 1) (by omega) (by omega)
    · rw [if_neg (by simp only; omega), if_neg (by simp only; omega)]

end MQT.DD.Fraction
