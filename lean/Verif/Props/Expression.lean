/-
C59: symbolic expression arithmetic is compatible with evaluation.
-/
import Verif.IR.Expression

set_option autoImplicit false

noncomputable section

open Classical

namespace MQT.Sym.Expression

variable {U : Type} [Const U] {m : ℝ} [LawfulConst U m]

/-- The value of an assignment, 0 where there is none. -/
def asgVal (asg : ℕ → Option ℝ) (v : ℕ) : ℝ := (asg v).getD 0

/-- **C59.** The value of a sum is the sum of the values, up to the tolerance with which the code drops
coefficients, and (for phases, where `m = 2π`) up to a multiple of `m`.  Exact when no two coefficients nearly
cancel.  Full property: always exact; see `c59_near_cancel`. -/
theorem c59_add_partial (a b : Expression U) (ha : a.WF) (hb : b.WF) {asg : ℕ → Option ℝ} {x y : ℝ}
    (hx : a.evaluate asg = .ok x) (hy : b.evaluate asg = .ok y) :
    ∃ c z, ∃ k : ℤ, a.add b = .ok c ∧ c.WF ∧ c.evaluate asg = .ok z ∧
      |z - (x + y + k * m)| ≤ slack (asgVal asg) b.terms ∧
      (NoNearCancel a.terms b.terms → z = x + y + k * m) := by
  obtain ⟨hA, rfl⟩ := evaluate_inv hx
  obtain ⟨hB, rfl⟩ := evaluate_inv hy
  obtain ⟨c, h1, h2, h3, k, h4, h5⟩ := add_spec (m := m) a b ha hb
  refine ⟨c, c.val (asgVal asg), k, h1, h2, evaluate_ok ?_, h4 _, fun hn => h5 hn _⟩
  intro u hu
  obtain ⟨w, hw, e⟩ := h3 u hu
  rw [← e]
  rcases List.mem_append.1 hw with h | h
  · exact hA w h
  · exact hB w h

/-- **C59.** Differences. -/
theorem c59_sub_partial (a b : Expression U) (ha : a.WF) (hb : b.WF) {asg : ℕ → Option ℝ} {x y : ℝ}
    (hx : a.evaluate asg = .ok x) (hy : b.evaluate asg = .ok y) :
    ∃ c z, ∃ k : ℤ, a.sub b = .ok c ∧ c.WF ∧ c.evaluate asg = .ok z ∧
      |z - (x - y + k * m)| ≤ slack (asgVal asg) b.terms ∧
      (NoNearCancel a.terms b.neg.terms → z = x - y + k * m) := by
  obtain ⟨hB, rfl⟩ := evaluate_inv hy
  obtain ⟨k', hk'⟩ := neg_spec (m := m) b
  have hn : b.neg.evaluate asg = .ok (b.neg.val (asgVal asg)) := by
    apply evaluate_ok
    intro u hu
    obtain ⟨w, hw, rfl⟩ := List.mem_map.1 hu
    exact hB w hw
  have hw : b.neg.WF := sorted_map hb _
  obtain ⟨c, z, k, h1, h2, h3, h4, h5⟩ := c59_add_partial (m := m) a b.neg ha hw hx hn
  refine ⟨c, z, k + k', h1, h2, h3, ?_, fun hh => ?_⟩
  · have : slack (asgVal asg) b.neg.terms = slack (asgVal asg) b.terms := slack_map _ _ _
    rw [this, hk'] at h4
    convert h4 using 2
    unfold asgVal
    push_cast
    ring
  · rw [h5 hh, hk']
    unfold asgVal
    push_cast
    ring

/-- **C59.** Negation, exactly. -/
theorem c59_neg (a : Expression U) {asg : ℕ → Option ℝ} {x : ℝ} (hx : a.evaluate asg = .ok x) :
    ∃ k : ℤ, a.neg.evaluate asg = .ok (-x + k * m) ∧ (a.WF → a.neg.WF) := by
  obtain ⟨hA, rfl⟩ := evaluate_inv hx
  obtain ⟨k, hk⟩ := neg_spec (m := m) a
  refine ⟨k, ?_, fun h => sorted_map h _⟩
  rw [← hk]
  apply evaluate_ok
  intro u hu
  obtain ⟨w, hw, rfl⟩ := List.mem_map.1 hu
  exact hA w hw

/-- **C59.** Products with a number, for `Symbolic`.  Full property: for every factor; factors below the
tolerance are taken for zero (`c59_small_factor`). -/
theorem c59_mul_partial (a : Symbolic) {r : ℝ} (hr : r = 0 ∨ tol ≤ |r|) {asg : ℕ → Option ℝ} {x : ℝ}
    (hx : a.evaluate asg = .ok x) : ∃ c, a.mul r = .ok c ∧ c.evaluate asg = .ok (x * r) ∧ (a.WF → c.WF) := by
  obtain ⟨hA, rfl⟩ := evaluate_inv hx
  rcases hr with rfl | hr
  · refine ⟨⟨[], 0⟩, ?_, ?_, fun _ => List.Pairwise.nil⟩
    · unfold mul
      rw [if_pos (by rw [abs_zero]; unfold tol; positivity)]
      rfl
    · rw [mul_zero]; rfl
  · refine ⟨⟨a.terms.map fun t => ⟨t.var, t.coeff * r⟩, a.const * r⟩, by unfold mul; rw [if_neg (not_lt.2 hr)]; rfl, ?_, fun h => sorted_map h _⟩
    rw [evaluate_ok (ρ := fun v => (asg v).getD 0)]
    · unfold val
      simp only
      rw [termsVal_map, add_mul]; rfl
    · intro u hu
      obtain ⟨w, hw, rfl⟩ := List.mem_map.1 hu
      exact hA w hw

/-- **C59.** Quotients, for `Symbolic`: exact, and refused exactly for divisors below the tolerance. -/
theorem c59_div (a : Symbolic) (r : ℝ) {asg : ℕ → Option ℝ} {x : ℝ} (hx : a.evaluate asg = .ok x) :
    (|r| < tol ∧ a.div r = .throw) ∨
    (tol ≤ |r| ∧ ∃ c, a.div r = .ok c ∧ c.evaluate asg = .ok (x / r) ∧ (a.WF → c.WF)) := by
  obtain ⟨hA, rfl⟩ := evaluate_inv hx
  by_cases hr : |r| < tol
  · exact .inl ⟨hr, by unfold div; rw [if_pos hr]⟩
  · refine .inr ⟨not_lt.1 hr, ⟨a.terms.map fun t => ⟨t.var, t.coeff / r⟩, a.const / r⟩, by unfold div; rw [if_neg hr]; rfl, ?_, fun h => sorted_map h _⟩
    rw [evaluate_ok (ρ := fun v => (asg v).getD 0)]
    · unfold val
      simp only
      rw [termsVal_div, add_div]; rfl
    · intro u hu
      obtain ⟨w, hw, rfl⟩ := List.mem_map.1 hu
      exact hA w hw

theorem c59_divInt (a : Symbolic) (k : ℤ) {asg : ℕ → Option ℝ} {x : ℝ} (hx : a.evaluate asg = .ok x) :
    (k = 0 ∧ a.divInt k = .throw) ∨
    (k ≠ 0 ∧ ∃ c, a.divInt k = .ok c ∧ c.evaluate asg = .ok (x / k) ∧ (a.WF → c.WF)) := by
  obtain ⟨hA, rfl⟩ := evaluate_inv hx
  by_cases hr : k = 0
  · exact .inl ⟨hr, by unfold divInt; rw [if_pos hr]⟩
  · refine .inr ⟨hr, ⟨a.terms.map fun t => ⟨t.var, t.coeff / k⟩, a.const / k⟩, by unfold divInt; rw [if_neg hr]; rfl, ?_, fun h => sorted_map h _⟩
    rw [evaluate_ok (ρ := fun v => (asg v).getD 0)]
    · unfold val
      simp only
      rw [termsVal_div, add_div]; rfl
    · intro u hu
      obtain ⟨w, hw, rfl⟩ := List.mem_map.1 hu
      exact hA w hw

/-- **C59.** Products of phases with a number: within `10⁻⁹ π`, modulo `2π`. -/
theorem c59_mul_pi_partial (a : PiExpression) {r : ℝ} (hr : tol ≤ |r|) {c : PiExpression} (hc : a.mul r = .ok c)
    {asg : ℕ → Option ℝ} {x : ℝ} (hx : a.evaluate asg = .ok x) :
    ∃ z, ∃ k : ℤ, c.evaluate asg = .ok z ∧ |z - (x * r + k * (2 * Real.pi))| ≤ 1 / 10 ^ 9 * Real.pi := by
  obtain ⟨hA, rfl⟩ := evaluate_inv hx
  have hp := Real.pi_pos
  unfold mul at hc
  rw [if_neg (not_lt.2 hr)] at hc
  split at hc
  · rename_i d hd
    injection hc with hc
    obtain ⟨-, k, hk⟩ := ZX.PiRational.ofReal_spec hd
    refine ⟨_, k, evaluate_ok (ρ := fun v => (asg v).getD 0) ?_, ?_⟩
    · intro u hu
      rw [← hc] at hu
      obtain ⟨w, hw, rfl⟩ := List.mem_map.1 hu
      exact hA w hw
    · rw [← hc]
      unfold val
      simp only
      rw [termsVal_map]
      have e : (Const.toReal d : ℝ) = d.frac * Real.pi := rfl
      have e' : (Const.toReal a.const : ℝ) * r / Real.pi * Real.pi = Const.toReal a.const * r := by
        field_simp
      have h1 := abs_le.1 hk
      have h2 := mul_le_mul_of_nonneg_right h1.1 hp.le
      have h3 := mul_le_mul_of_nonneg_right h1.2 hp.le
      rw [e, abs_le]
      constructor <;> nlinarith [h2, h3, e']
  · simp at hc
  · simp at hc

/-- **C59.** An expression evaluates exactly when all its variables are assigned. -/
theorem c59_evaluate_iff (a : Expression U) (asg : ℕ → Option ℝ) :
    (∃ x, a.evaluate asg = .ok x) ↔ ∀ t ∈ a.terms, asg t.var ≠ none := by
  constructor
  · rintro ⟨x, hx⟩ t ht h
    rw [(evaluate_inv hx).1 t ht] at h
    exact absurd h (by simp)
  · intro h
    refine ⟨_, evaluate_ok (ρ := fun v => (asg v).getD 0) fun t ht => ?_⟩
    cases hv : asg t.var with
    | none => exact absurd hv (h t ht)
    | some y => simp [hv]

/-- **C59.** The constructor from terms sorts, merges, and keeps the value up to the tolerance. -/
theorem c59_construct {U : Type} [Const U] (m : ℝ) [LawfulConst U m] (ts : List Term) : (ofTerms ts : Expression U).WF ∧
    (∀ u ∈ (ofTerms ts : Expression U).terms, tol ≤ |u.coeff|) ∧
    ∀ ρ, |(ofTerms ts : Expression U).val ρ - termsVal ρ ts| ≤ slack ρ ts :=
  ⟨(ofTerms_spec (m := m) ts).1, fun u hu => ((ofTerms_spec (m := m) ts).2.1 u hu).2, (ofTerms_spec (m := m) ts).2.2⟩

/-- **C59.** Adding a constant is exact. -/
theorem c59_plusConst (a : Expression U) (c : U) {asg : ℕ → Option ℝ} {x : ℝ} (hx : a.evaluate asg = .ok x) :
    ∃ k : ℤ, (a.plusConst c).evaluate asg = .ok (x + Const.toReal c + k * m) := by
  obtain ⟨hA, rfl⟩ := evaluate_inv hx
  obtain ⟨k, hk⟩ := LawfulConst.add (m := m) a.const c
  refine ⟨k, ?_⟩
  rw [evaluate_ok (a := a.plusConst c) (ρ := fun v => (asg v).getD 0) hA]
  unfold val plusConst
  simp only
  rw [hk]
  congr 1; ring

/-- **C59.** Expressions found equal have nearly the same value if they have the same variables.  Full property:
without that condition; see `c59_eq_wrong`. -/
theorem c59_eq_partial (a b : Expression U) (h : a.eq b) (hv : a.terms.map Term.var = b.terms.map Term.var)
    (ρ : ℕ → ℝ) : |a.val ρ - b.val ρ| ≤ slack ρ a.terms := by
  obtain ⟨h0, h2, h3⟩ := h
  clear h0
  unfold val
  rw [h2, add_sub_add_right_eq_sub]
  generalize a.terms = ta at *
  generalize b.terms = tb at *
  induction ta generalizing tb with
  | nil =>
    cases tb with
    | nil => simp [slack]
    | cons => simp at hv
  | cons x ta ih =>
    cases tb with
    | nil => simp at hv
    | cons y tb =>
      simp only [List.map_cons, List.cons.injEq] at hv
      have i := ih tb hv.2 (fun i p q hp hq => h3 (i + 1) p q (by simpa using hp) (by simpa using hq))
      have j := h3 0 x y rfl rfl
      rw [termsVal_cons, termsVal_cons, ← hv.1]
      have s : slack ρ (x :: ta) = tol * |ρ x.var| + slack ρ ta := by simp [slack]
      have j' : |(x.coeff - y.coeff) * ρ x.var| ≤ tol * |ρ x.var| := by
        rw [abs_mul]; exact mul_le_mul_of_nonneg_right j.le (abs_nonneg _)
      rw [s]
      have e : x.coeff * ρ x.var + termsVal ρ ta - (y.coeff * ρ x.var + termsVal ρ tb) =
          (x.coeff - y.coeff) * ρ x.var + (termsVal ρ ta - termsVal ρ tb) := by ring
      rw [e]
      exact (abs_add_le _ _).trans (add_le_add j' i)

/-! ### Where it fails -/

/-- The code drops a sum of coefficients below the tolerance, however large the variable: at `x = 10¹⁰`, the
value of `x + (-1 + 10⁻¹⁰) x` is 1, that of the computed sum 0. -/
theorem c59_near_cancel : ∃ (a b c : Symbolic) (ρ : ℕ → ℝ), a.WF ∧ b.WF ∧ a.add b = .ok c ∧
    a.val ρ + b.val ρ = 1 ∧ c.val ρ = 0 := by
  have e : (⟨[⟨0, 1⟩], 0⟩ : Symbolic).add ⟨[⟨0, -1 + 1 / 10 ^ 10⟩], 0⟩ = .ok ⟨[], 0 + 0⟩ := by
    have h : addTerms [⟨0, 1⟩] [⟨0, -1 + 1 / 10 ^ 10⟩] = .ok [] := by
      have : addTerm [⟨0, 1⟩] ⟨0, -1 + 1 / 10 ^ 10⟩ = .ok [] := by
        unfold addTerm lowerBound
        simp only [List.takeWhile_cons]
        norm_num
        unfold tol
        norm_num
      unfold addTerms
      rw [this]
      rfl
    unfold add
    rw [if_neg (fun h => by simpa using h.1), if_neg (fun h => by simpa using h.1)]
    simp only [h]
    rfl
  refine ⟨⟨[⟨0, 1⟩], 0⟩, ⟨[⟨0, -1 + 1 / 10 ^ 10⟩], 0⟩, ⟨[], 0 + 0⟩, fun _ => 10 ^ 10, List.pairwise_singleton _ _,
    List.pairwise_singleton _ _, e, ?_, ?_⟩
  · simp only [val, termsVal, Const.toReal, List.map_cons, List.map_nil, List.sum_cons, List.sum_nil, id]
    norm_num
  · simp [val, termsVal, Const.toReal]

/-- A factor below the tolerance erases the expression: `10⁻¹⁰ · 10¹⁰` is 0. -/
theorem c59_small_factor : ∃ (a c : Symbolic) (r : ℝ), a.mul r = .ok c ∧ ∀ ρ, a.val ρ * r = 1 ∧ c.val ρ = 0 := by
  refine ⟨⟨[], 10 ^ 10⟩, ⟨[], 0⟩, 1 / 10 ^ 10, ?_, fun ρ => ⟨?_, ?_⟩⟩
  · unfold mul
    rw [if_pos]
    · rfl
    · unfold tol; rw [abs_of_pos (by positivity)]; norm_num
  · simp only [val, termsVal, Const.toReal, List.map_nil, List.sum_nil, id]
    norm_num
  · simp [val, termsVal, Const.toReal]

/-- `operator==` does not look at the variables: `x == y`. -/
theorem c59_eq_wrong : ∃ (a b : Symbolic) (ρ : ℕ → ℝ), a.WF ∧ b.WF ∧ a.eq b ∧ a.val ρ = 0 ∧ b.val ρ = 1 := by
  refine ⟨⟨[⟨0, 1⟩], 0⟩, ⟨[⟨1, 1⟩], 0⟩, fun v => v, List.pairwise_singleton _ _, List.pairwise_singleton _ _,
    ⟨rfl, rfl, ?_⟩, ?_, ?_⟩
  · intro i x y hx hy
    rcases i with _ | i
    · simp only [List.getElem?_cons_zero, Option.some.injEq] at hx hy
      rw [← hx, ← hy]
      simp only [sub_self, abs_zero]
      unfold tol; positivity
    · simp at hx
  · simp [val, termsVal, Const.toReal]
  · simp [val, termsVal, Const.toReal]

/-- `T + Expression` ignores the number and doubles the expression. -/
theorem c59_scalarPlus_wrong (r : ℝ) : ∃ c : PiExpression, scalarPlus r ⟨[⟨0, 1⟩], ⟨0⟩⟩ = .ok c ∧
    ∀ ρ, c.val ρ = 2 * ρ 0 := by
  refine ⟨⟨[⟨0, 1 + 1⟩], Const.add ⟨0⟩ ⟨0⟩⟩, ?_, fun ρ => ?_⟩
  · unfold scalarPlus addSelf
    rw [if_neg (fun h => by simpa using h.1), if_neg]
    · rfl
    rintro ⟨t, ht, h⟩
    rw [List.mem_singleton] at ht
    rw [ht] at h
    unfold tol at h
    norm_num at h
  · have : ((Const.add (⟨0⟩ : ZX.PiRational) ⟨0⟩ : ZX.PiRational)).frac = 0 := by
      show (ZX.PiRational.modPi ⟨0 + 0⟩).frac = 0
      rw [ZX.PiRational.modPi_eq]; norm_num
    unfold val
    show termsVal ρ _ + (((Const.add (⟨0⟩ : ZX.PiRational) ⟨0⟩ : ZX.PiRational)).frac : ℝ) * Real.pi = _
    rw [this]
    simp only [termsVal, List.map_cons, List.map_nil, List.sum_cons, List.sum_nil, Rat.cast_zero]; ring

/-- `U - Expression` computes `Expression - U`. -/
theorem c59_constMinus_swapped (a : Symbolic) (c : ℝ) (ρ : ℕ → ℝ) : (constMinus c a).val ρ = a.val ρ - c := by
  unfold constMinus plusConst val
  simp only [Const.toReal, Const.add, Const.neg, id]
  ring

/-- `Term - Expression` computes `Expression - Term` (here for a variable not in the expression, and a
coefficient that is not taken for zero). -/
theorem c59_termMinus_swapped (a : Symbolic) (ha : a.WF) (t : Term) (ht : ∀ u ∈ a.terms, u.var ≠ t.var)
    (hc : tol ≤ |t.coeff|) : ∃ c, termMinus t a = .ok c ∧ ∀ ρ, c.val ρ = a.val ρ - t.coeff * ρ t.var := by
  have ho : (ofTerms [⟨t.var, -t.coeff⟩] : Symbolic) = ⟨[⟨t.var, -t.coeff⟩], 0⟩ := by
    unfold ofTerms
    rw [List.insertionSort_cons, List.insertionSort_nil, List.orderedInsert_nil]
    unfold aggregate
    rw [if_neg (by simpa using hc)]
    rfl
  obtain ⟨c, h1, -, -, k, -, h4⟩ := add_spec (m := 0) a (ofTerms [⟨t.var, -t.coeff⟩]) ha
    (by rw [ho]; exact List.pairwise_singleton _ _)
  refine ⟨c, h1, fun ρ => ?_⟩
  rw [h4 ?_, ho]
  · simp only [val, termsVal, Const.toReal, List.map_cons, List.map_nil, List.sum_cons, List.sum_nil, id]
    ring
  · intro p hp u hu e
    rw [ho] at hu
    rw [List.mem_singleton] at hu
    rw [hu] at e
    exact absurd e (ht p hp)

/-- Multiplying a phase expression by a phase scales its terms by `π` times as much as its constant: from
`x + π/2` and the factor `π` it makes `π x + π/2`, which is neither `π (x + π/2)` nor `1 (x + π/2)`. -/
theorem c59_mulPi_inconsistent (ρ : ℕ → ℝ) :
    (mulPi ⟨[⟨0, 1⟩], ⟨1 / 2⟩⟩ ⟨1⟩).val ρ = Real.pi * ρ 0 + Real.pi / 2 ∧
    (⟨[⟨0, 1⟩], ⟨1 / 2⟩⟩ : PiExpression).val ρ = ρ 0 + Real.pi / 2 := by
  have hp := Real.pi_gt_three
  constructor
  · unfold mulPi
    rw [if_neg]
    · have : (ZX.PiRational.mul ⟨1 / 2⟩ ⟨1⟩).frac = 1 / 2 := by
        unfold ZX.PiRational.mul; rw [ZX.PiRational.modPi_eq]; norm_num
      show termsVal ρ _ + ((ZX.PiRational.mul ⟨1 / 2⟩ ⟨1⟩).frac : ℝ) * Real.pi = _
      rw [this]
      simp [termsVal, piToReal]; ring
    · unfold piToReal tol
      rw [not_lt]
      norm_num
      rw [abs_of_pos Real.pi_pos]
      linarith
  · show termsVal ρ _ + (((1 / 2 : ℚ)) : ℝ) * Real.pi = _
    simp [termsVal]; ring

/-- The constructor from a vector of terms does not sort: adding to its result can be undefined. -/
theorem c59_unsorted : (⟨[⟨1, 1⟩, ⟨0, 1⟩], 0⟩ : Symbolic).add ⟨[⟨1, 1⟩], 0⟩ = .ub := by
  have h : addTerms [⟨1, 1⟩, ⟨0, 1⟩] [⟨1, 1⟩] = .ub := by
    have : addTerm [⟨1, 1⟩, ⟨0, 1⟩] ⟨1, 1⟩ = .ub := by
      have : lowerBound [⟨1, 1⟩, ⟨0, 1⟩] 1 = .ub := by
        unfold lowerBound
        simp
      unfold addTerm
      rw [this]
    unfold addTerms
    rw [this]
  unfold add
  rw [if_neg (fun h => by simpa using h.1), if_neg (fun h => by simpa using h.1)]
  simp only [h]

/-- `(x + 1) + (2x + y) = 3x + y + 1`, evaluated at `x = 2`, `y = 5`: 12. -/
example : ∃ c z, ∃ k : ℤ, (⟨[⟨0, 1⟩], 1⟩ : Symbolic).add ⟨[⟨0, 2⟩, ⟨1, 1⟩], 0⟩ = .ok c ∧
    c.evaluate (fun v => if v = 0 then some 2 else some 5) = .ok z ∧ z = 12 + k * 0 := by
  obtain ⟨c, z, k, h1, -, h3, -, h5⟩ := c59_add_partial (m := 0) (⟨[⟨0, 1⟩], 1⟩ : Symbolic) ⟨[⟨0, 2⟩, ⟨1, 1⟩], 0⟩
    (List.pairwise_singleton _ _) (by simp [WF, Sorted]) (asg := fun v => if v = 0 then some 2 else some 5)
    (x := 3) (y := 9) (by
      simp only [evaluate, List.foldl_cons, List.foldl_nil, Const.toReal, id, if_true]
      norm_num) (by
      simp only [evaluate, List.foldl_cons, List.foldl_nil, Const.toReal, id, if_true]
      norm_num)
  refine ⟨c, z, k, h1, h3, ?_⟩
  rw [h5]
  · norm_num
  · intro p hp t ht e
    right
    simp only [List.mem_cons, List.not_mem_nil, or_false] at hp ht
    subst hp
    rcases ht with rfl | rfl
    · unfold tol; norm_num
    · simp at e

end MQT.Sym.Expression
