/-
Property C112: the test whether a matrix is close to the identity (`isCloseToIdentity`).
-/
import Verif.DD.CloseId

set_option autoImplicit false

noncomputable section

open Classical
open Complex (normSq)

namespace MQT.DD

open MQT.IR (Bits)

/-- **C112.** An accepted matrix has, relative to the weight of the edge, no entry larger than the root of the tolerance at places
where the row and the column differ in a qubit that is not garbage.
Missing from C112: the weight of the edge, which is not looked at (`c112_zero`, `c112_factor`); garbage qubits together with the
check of the diagonal, and a positive tolerance for the diagonal. -/
theorem c112_small_partial {n : ℕ} {m : MEdge} (h : MCan n m.p) {tol : ℝ} {g : List Bool} {one : Bool}
    (hm : isCloseToIdentity m tol g one = true) {q : ℕ} (hq : q < n) (hg : g.getD q false = false) {x y : Bits} (hxy : x q ≠ y q) :
    ‖m.w * mval n m.p x y‖ ≤ ‖m.w‖ * √tol := by
  rw [norm_mul]
  exact mul_le_mul_of_nonneg_left (Fine.small hg hxy n _ h ((isCloseToIdentity_iff ..).1 hm) hq) (norm_nonneg _)

/-- **C112.** Without the check of the diagonal and with tolerance 0, exactly the matrices are accepted that are diagonal on the
qubits that are not garbage. -/
theorem c112_diagonal {n : ℕ} {m : MEdge} (h : MCan n m.p) (hw : m.w ≠ 0) (g : List Bool) :
    isCloseToIdentity m 0 g false = true ↔
      ∀ x y : Bits, (∃ q < n, g.getD q false = false ∧ x q ≠ y q) → m.w * mval n m.p x y = 0 := by
  rw [isCloseToIdentity_iff]
  constructor
  · rintro hf x y ⟨q, hq, hg, hxy⟩
    have := Fine.small hg hxy n _ h hf hq
    rw [Real.sqrt_zero] at this
    rw [norm_le_zero_iff.1 this, mul_zero]
  · exact fun hd => Fine.of_diag le_rfl _ n h fun x y hxy => (mul_eq_zero.1 (hd x y hxy)).resolve_left hw

/-- **C112.** No diagonal matrix is rejected by the test without the check of the diagonal, whatever the tolerance. -/
theorem c112_accepts {n : ℕ} {m : MEdge} (h : MCan n m.p) {tol : ℝ} (ht : 0 ≤ tol) (g : List Bool)
    (hd : ∀ x y : Bits, (∃ q < n, g.getD q false = false ∧ x q ≠ y q) → mval n m.p x y = 0) :
    isCloseToIdentity m tol g false = true :=
  (isCloseToIdentity_iff ..).2 (Fine.of_diag ht _ n h hd)

/-- **C112.** With the check of the diagonal, tolerance 0 and no garbage, an accepted matrix is diagonal, its first entry is the
weight of the edge and the others are that or 0 (as for ancillary qubits). -/
theorem c112_one_partial {n : ℕ} {m : MEdge} (h : MCan n m.p) (hm : isCloseToIdentity m 0 [] true = true) (x y : Bits) :
    (m.w * mval n m.p x y = 0 ∨ (∀ q < n, x q = y q) ∧ m.w * mval n m.p x y = m.w) ∧
      ((∀ q < n, x q = false ∧ y q = false) → m.w * mval n m.p x y = m.w) := by
  have hf := (isCloseToIdentity_iff ..).1 hm
  have diag : (∀ q < n, x q = y q) → mval n m.p x y = mval n m.p x x := fun hxy => mval_congr n _ (fun _ _ => rfl) fun q hq => (hxy q hq).symm
  have ex := Fine.exact n _ h hf x
  constructor
  · by_cases hxy : ∀ q < n, x q = y q
    · rw [diag hxy]
      rcases ex.1 with e | e
      · left
        rw [e, mul_zero]
      · right
        rw [e, mul_one]
        exact ⟨hxy, rfl⟩
    · left
      push Not at hxy
      obtain ⟨q, hq, hne⟩ := hxy
      have := Fine.small (g := []) (by simp) hne n _ h hf hq
      rw [Real.sqrt_zero] at this
      rw [norm_le_zero_iff.1 this, mul_zero]
  · intro h0
    rw [diag fun q hq => (h0 q hq).1.trans (h0 q hq).2.symm, ex.2 fun q hq => (h0 q hq).1, mul_one]

/-- **C112.** The identity is accepted. -/
theorem c112_identity (tol : ℝ) (g : List Bool) (one : Bool) : isCloseToIdentity ⟨.term, 1⟩ tol g one = true := rfl

/-- **C112 fails.** The zero matrix is said to be close to the identity. -/
theorem c112_zero (tol : ℝ) (g : List Bool) (one : Bool) :
    isCloseToIdentity ⟨.term, 0⟩ tol g one = true ∧ ∀ (n : ℕ) (x y : Bits), (0 : ℂ) * mval n .term x y = 0 :=
  ⟨rfl, fun _ _ _ => zero_mul _⟩

/-- **C112 fails.** Every multiple of the identity is said to be close to the identity, although the diagonal is to be checked. -/
theorem c112_factor (w : ℂ) (tol : ℝ) : isCloseToIdentity ⟨.term, w⟩ tol [] true = true ∧
    ∀ (n : ℕ) (x : Bits), w * mval n .term x x = w :=
  ⟨rfl, fun n x => by rw [mval_term, if_pos fun _ _ => rfl, mul_one]⟩

/-- X and Z on qubit 0, and X on qubit 1. -/
private def xNode (v : ℕ) : MNode := .node v (fun b => if b.1 ≠ b.2 then 1 else 0) fun _ => .term
private def zNode : MNode := .node 0 (fun b => if b.1 ≠ b.2 then 0 else if b.1 then -1 else 1) fun _ => .term

/-- X is rejected with every tolerance below 1; Z is rejected only if the diagonal is checked. -/
example : isCloseToIdentity ⟨xNode 0, 1⟩ (1 / 2) [] false = false ∧ isCloseToIdentity ⟨zNode, 1⟩ 0 [] false = true ∧
    isCloseToIdentity ⟨zNode, 1⟩ (1 / 2) [] true = false := by
  refine ⟨?_, ?_, ?_⟩
  · rw [← Bool.not_eq_true, isCloseToIdentity_iff]
    simp [xNode, Fine]
    norm_num
  · rw [isCloseToIdentity_iff]
    simp [zNode, Fine]
  · rw [← Bool.not_eq_true, isCloseToIdentity_iff]
    intro h
    simp only [zNode, Fine] at h
    have h3 := (h.2.1 trivial).2.2 (by norm_num)
    have := h3.2
    norm_num [Complex.arg_neg_one] at this
    rw [abs_of_pos Real.pi_pos] at this
    linarith [Real.two_le_pi]

/-- X on a garbage qubit is accepted. -/
example : isCloseToIdentity ⟨xNode 1, 1⟩ 0 [false, true] true = true := by
  rw [isCloseToIdentity_iff]
  simp [xNode, Fine]

end MQT.DD
