/-
Property C117: rounding of phases to multiples of `π/2` (`roundToClifford`, `ZXDiagram::approximateCliffords`).
-/
import Verif.ZX.RoundClifford

set_option autoImplicit false

noncomputable section

open Classical

namespace MQT.ZX

/-- The phase is less than `tol` half turns away from `q` half turns, whole turns aside. -/
def Near (a : Phase) (q : ℚ) (tol : ℝ) : Prop := ∃ k : ℤ, |(a.const.frac : ℝ) - q - 2 * k| < tol

/-- **C117.** A phase stays as it is, or it is constant and becomes a multiple of `π/2` that is closer than the tolerance. -/
theorem c117_sound (a : Phase) (tol : ℝ) : roundToClifford a tol = a ∨
    a.isConstant ∧ (roundToClifford a tol).isClifford ∧ |((roundToClifford a tol).const.frac : ℝ) - a.const.frac| < tol := by
  by_cases hc : a.isConstant
  swap
  · left
    rw [round_eq, if_pos hc]
  have h0 : ∀ q : ℚ, (q = 0 ∨ q = 1 / 2 ∨ q = -1 / 2 ∨ q = 1) → |(a.const.frac : ℝ) - q| < tol →
      a.isConstant ∧ Phase.isClifford ⟨a.sym, ⟨q⟩⟩ ∧ |(q : ℝ) - a.const.frac| < tol := by
    intro q hq hl
    refine ⟨hc, (clifford_iff ⟨a.sym, ⟨q⟩⟩ ?_).2 ⟨hc, hq⟩, by rwa [abs_sub_comm]⟩
    rcases hq with rfl | rfl | rfl | rfl <;> constructor <;> norm_num
  rw [round_eq, if_neg (not_not.2 hc)]
  split_ifs with h1 h2 h3 h4
  · exact Or.inr (h0 0 (by simp) (by simpa using h1))
  · exact Or.inr (h0 (1 / 2) (by simp) (by push_cast; exact h2))
  · exact Or.inr (h0 (-1 / 2) (by simp) (by push_cast; rwa [show (a.const.frac : ℝ) - -1 / 2 = a.const.frac + 1 / 2 by ring]))
  · exact Or.inr (h0 1 (by simp) (by push_cast; exact h4))
  · exact Or.inl rfl

/-- **C117.** The angle changes by less than the tolerance times `π`, for every assignment of the variables. -/
theorem c117_angle (a : Phase) {tol : ℝ} (ht : 0 < tol) (ρ : ℕ → ℝ) : |(roundToClifford a tol).rad ρ - a.rad ρ| < tol * Real.pi := by
  have hp := Real.pi_pos
  rcases c117_sound a tol with h | ⟨-, -, h⟩
  · rw [h, sub_self, abs_zero]
    positivity
  · have hs : (roundToClifford a tol).sym = a.sym := by
      rw [round_eq]
      split_ifs <;> rfl
    unfold Phase.rad
    rw [hs, add_sub_add_left_eq_sub, ← sub_mul, abs_mul, abs_of_pos hp]
    exact mul_lt_mul_of_pos_right h hp

/-- **C117.** A constant phase that is close to a multiple of `π/2` between `-π` (exclusively) and `π` becomes this multiple.

Missing from C117: phases close to `-π`, which is the same as `π`; for them it fails, see below. -/
theorem c117_complete_partial (a : Phase) (hc : a.isConstant) {tol : ℝ} (ht : tol ≤ 1 / 4) {q : ℚ}
    (hq : q = 0 ∨ q = 1 / 2 ∨ q = -1 / 2 ∨ q = 1) (h : |(a.const.frac : ℝ) - q| < tol) : roundToClifford a tol = ⟨a.sym, ⟨q⟩⟩ := by
  rw [abs_lt] at h
  rw [round_eq, if_neg (not_not.2 hc)]
  simp only [abs_lt]
  rcases hq with rfl | rfl | rfl | rfl <;> push_cast at h
  · rw [if_pos ⟨by linarith, by linarith⟩]
  · rw [if_neg (fun h' => by linarith [h'.1, h'.2]), if_pos ⟨by linarith, by linarith⟩]
  · rw [if_neg (fun h' => by linarith [h'.1, h'.2]), if_neg (fun h' => by linarith [h'.1, h'.2]), if_pos ⟨by linarith, by linarith⟩]
  · rw [if_neg (fun h' => by linarith [h'.1, h'.2]), if_neg (fun h' => by linarith [h'.1, h'.2]),
      if_neg (fun h' => by linarith [h'.1, h'.2]), if_pos ⟨by linarith, by linarith⟩]

theorem constant_zero (q : PiRational) : Phase.isConstant ⟨0, q⟩ := rfl

/-- **C117 fails.** The phase `-999/1000 π` is `π/1000` away from `π`, but is not rounded with a tolerance of `π/100`. -/
theorem c117_minus_pi : let a : Phase := ⟨0, ⟨-999 / 1000⟩⟩
    a.const.InRange ∧ Near a 1 (1 / 100) ∧ roundToClifford a (1 / 100) = a ∧ ¬ a.isClifford := by
  have hr : PiRational.InRange ⟨-999 / 1000⟩ := by constructor <;> norm_num
  refine ⟨hr, ⟨-1, ?_⟩, ?_, ?_⟩
  · push_cast
    rw [abs_lt]
    constructor <;> norm_num
  · rw [round_eq, if_neg (not_not.2 (constant_zero _))]
    push_cast
    simp only [abs_lt]
    rw [if_neg (by norm_num), if_neg (by norm_num), if_neg (by norm_num), if_neg (by norm_num)]
  · rw [clifford_iff _ hr]
    norm_num

/-- **C117.** Multiples of `π/2` stay, if the tolerance is at most `π/2`. -/
theorem c117_fixed (a : Phase) (hr : a.const.InRange) (hc : a.isClifford) {tol : ℝ} (ht : tol ≤ 1 / 2) : roundToClifford a tol = a := by
  obtain ⟨h1, h2⟩ := (clifford_iff a hr).1 hc
  obtain ⟨sym, ⟨q⟩⟩ := a
  rw [round_eq, if_neg (not_not.2 h1)]
  simp only at h2 ⊢
  simp only [abs_lt]
  rcases h2 with rfl | rfl | rfl | rfl <;> push_cast <;> split_ifs with a1 a2 a3 a4 <;>
    first
      | rfl
      | (exfalso; linarith [a1.1, a1.2])
      | (exfalso; linarith [a2.1, a2.2])
      | (exfalso; linarith [a3.1, a3.2])
      | (exfalso; linarith [a4.1, a4.2])

/-- **C117.** Rounding twice is rounding once. -/
theorem c117_idempotent (a : Phase) {tol : ℝ} (ht : tol ≤ 1 / 2) :
    roundToClifford (roundToClifford a tol) tol = roundToClifford a tol := by
  rcases c117_sound a tol with h | ⟨-, hc, -⟩
  · rw [h, h]
  · by_cases h : roundToClifford a tol = a
    · rw [h, h]
    refine c117_fixed _ ?_ hc ht
    rw [round_eq] at h ⊢
    split_ifs at h ⊢ <;> first | exact absurd rfl h | (constructor <;> norm_num)

/-- **C117 fails.** With a larger tolerance the phase `π` becomes `π/2`, not the closest multiple, and then 0. -/
theorem c117_large_tolerance : roundToClifford ⟨0, ⟨1⟩⟩ (3 / 5) = ⟨0, ⟨1 / 2⟩⟩ ∧ roundToClifford ⟨0, ⟨1 / 2⟩⟩ (3 / 5) = ⟨0, ⟨0⟩⟩ := by
  constructor <;> rw [round_eq, if_neg (not_not.2 (constant_zero _))] <;> push_cast <;> simp only [abs_lt]
  · rw [if_neg (by norm_num), if_pos (by norm_num)]
  · rw [if_pos (by norm_num)]

/-- **C117.** `approximateCliffords` rounds the phase of every vertex and leaves the rest. -/
theorem c117_diagram (D : Diagram) (tol : ℝ) : let E := D.approximateCliffords tol
    (∀ v, D.vert v = none ↔ E.vert v = none) ∧
    (∀ v d, D.vert v = some d → ∃ e, E.vert v = some e ∧ e.qubit = d.qubit ∧ e.type = d.type ∧ e.phase = roundToClifford d.phase tol) ∧
    E.adj = D.adj ∧ E.inputs = D.inputs ∧ E.outputs = D.outputs ∧ E.globalPhase = D.globalPhase := by
  refine ⟨fun v => ?_, fun v d hd => ?_, rfl, rfl, rfl, rfl⟩
  · simp [Diagram.approximateCliffords]
  · exact ⟨{ d with phase := roundToClifford d.phase tol }, by simp [Diagram.approximateCliffords, hd], rfl, rfl, rfl⟩

/-- A phase close to `-π/2` is rounded, a phase with a variable is not. -/
example : roundToClifford ⟨0, ⟨-501 / 1000⟩⟩ (1 / 100) = ⟨0, ⟨-1 / 2⟩⟩ ∧
    roundToClifford ⟨Finsupp.single 0 1, ⟨1 / 1000⟩⟩ (1 / 100) = ⟨Finsupp.single 0 1, ⟨1 / 1000⟩⟩ := by
  refine ⟨c117_complete_partial _ (constant_zero _) (by norm_num) (by simp) (by rw [abs_lt]; push_cast; constructor <;> norm_num), ?_⟩
  have h : ¬ Phase.isConstant ⟨Finsupp.single 0 1, ⟨1 / 1000⟩⟩ := fun h : Finsupp.single 0 (1 : ℝ) = 0 => by simp at h
  rw [round_eq, if_pos h]

end MQT.ZX
