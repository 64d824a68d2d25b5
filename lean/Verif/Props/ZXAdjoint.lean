/-
Property C107: diagrams without X spiders (`toGraphlike`) and adjoint diagrams (`adjoint`).
-/
import Verif.ZX.Adjoint
import Verif.ZX.Concrete

set_option autoImplicit false

noncomputable section

open Classical

open Function (update)

namespace MQT.ZX

open Diagram

/-! ### Diagrams without X spiders -/

/-- **C107.** `toGraphlike` turns X spiders into Z spiders and keeps everything else about the vertices, and the matrix.
Missing from C107: diagrams with parallel edges (`c107_parallel`). -/
theorem c107_graphlike_partial {D : Diagram} (h : D.Inv) (hs : D.Simple) : ∃ D', D.toGraphlike = some D' ∧ D'.Inv ∧ D'.Simple ∧
    (D.Good → D'.Good) ∧ D'.inputs = D.inputs ∧ D'.outputs = D.outputs ∧
    (∀ v, (graph D').ty v ≠ .x) ∧
    (∀ v, D'.vert v = (D.vert v).map VData.asZ) ∧
    (∀ a b, (graph D').total a b = (graph D).total a b) ∧
    ∀ ρ y x, entry ρ D' y x = entry ρ D y x := by
  obtain ⟨D', e, h1, h2, h3, -, h4, h5, -, h6, h7, h8⟩ := graphlike_loop D h hs D.size
  have hv : ∀ v, D'.vert v = (D.vert v).map VData.asZ := by
    intro v
    rw [h6]
    split_ifs with hlt
    · rfl
    · rw [h.out v (not_lt.1 hlt)]
      rfl
  refine ⟨D', e, h1, h2, h3, h4, h5, ?_, hv, h7, ?_⟩
  · intro v
    unfold Graph.ty
    show ((D'.vert v).map VData.type).getD .boundary ≠ .x
    rw [hv]
    cases D.vert v with
    | none => simp
    | some d =>
      simp only [Option.map_some, Option.getD_some]
      unfold VData.asZ
      split_ifs with hx
      · simp
      · exact hx
  · intro ρ y x
    unfold entry
    rw [h4, h5, h8]

/-! An X spider between an input and an output. -/

def xWire : Diagram := ofLists [.boundary, .x, .boundary] (fun v => if v = 1 then Phase.ofRat (1 / 2) else Phase.zero)
  [[⟨1, .simple⟩], [⟨0, .simple⟩, ⟨2, .hadamard⟩], [⟨1, .hadamard⟩]] [0] [2]

theorem ofRat_range {q : ℚ} (h : -3 < q ∧ q ≤ 3) : (Phase.ofRat q).const.InRange := (PiRational.modPi_range_iff _).2 h

theorem xWire_good : xWire.Good := by
  apply ofLists_good (by decide) (by decide)
  intro v
  split_ifs
  · exact ofRat_range (by norm_num)
  · exact ⟨by norm_num [Phase.zero], by norm_num [Phase.zero]⟩

/-- The types of the edges change. -/
example : ∃ D', xWire.toGraphlike = some D' ∧ D'.adj 0 = [⟨1, .hadamard⟩] ∧ D'.adj 1 = [⟨0, .hadamard⟩, ⟨2, .simple⟩] ∧
    D'.adj 2 = [⟨1, .simple⟩] ∧ (D'.vert 1).map VData.type = some .z := by
  refine ⟨_, rfl, rfl, rfl, rfl, rfl⟩

theorem half_u (ρ : ℕ → ℝ) : (Phase.ofRat (1 / 2)).u ρ = Complex.I := by
  rw [Phase.u_ofRat, show (((1 / 2 : ℚ) : ℝ) * Real.pi : ℝ) = Real.pi / 2 by push_cast; ring]
  push_cast
  exact Complex.exp_pi_div_two_mul_I

/-- The matrix is `|+⟩⟨+| + i |−⟩⟨−|` followed by a Hadamard gate, up to a factor: in row 1 and column 1 it is `-i`. -/
theorem xWire_val (ρ : ℕ → ℝ) (b : ℕ → Bool) : val ρ xWire b =
    if b 2 then (if b 0 then -Complex.I else Complex.I) else 1 := by
  rw [val_list xWire_good.inv ρ _ (lv := [0, 1, 2]) (li := [1]) (by decide) (by decide)]
  · have u2 := half_u ρ
    simp only [show (1 / 2 : ℚ) = 2⁻¹ by norm_num] at u2
    cases h0 : b 0 <;> cases h2 : b 2 <;>
      simp [listSum, listW, xWire, ofLists, ew, odd, Graph.vf, graph, Graph.ty, Phase.u_zero, Function.update, u2, h0, h2]
  · intro v
    rw [xWire, ofLists_alive]
    simp
    omega
  · intro v
    rw [xWire, ofLists_ty]
    match v with
    | 0 => simp
    | 1 => simp
    | 2 => simp
    | v + 3 => simp

example (ρ : ℕ → ℝ) : ∃ D', xWire.toGraphlike = some D' ∧ entry ρ D' (fun _ => true) (fun _ => true) = -Complex.I := by
  obtain ⟨D', e, -, -, -, -, -, -, -, -, h⟩ := c107_graphlike_partial xWire_good.inv xWire_good.simple
  refine ⟨D', e, ?_⟩
  rw [h]
  unfold entry
  rw [xWire_val]
  simp [bitsOf, xWire, ofLists]

/-! Parallel edges have to be excluded: the edge back that is toggled is the first one each time. -/

def xPar : Diagram := ofLists [.x, .z] (fun _ => Phase.zero) [[⟨1, .simple⟩, ⟨1, .simple⟩], [⟨0, .simple⟩, ⟨0, .simple⟩]] [] []

/-- **C107 fails.** An X and a Z spider with two plain edges: afterwards the two ends of the edges have different types. -/
theorem c107_parallel : xPar.Inv ∧ ∃ D', xPar.toGraphlike = some D' ∧ D'.adj 0 = [⟨1, .hadamard⟩, ⟨1, .hadamard⟩] ∧
    D'.adj 1 = [⟨0, .simple⟩, ⟨0, .simple⟩] ∧ ¬ D'.Inv := by
  refine ⟨ofLists_inv (by decide), _, rfl, rfl, rfl, ?_⟩
  intro h
  have := h.sym 0 1 .simple ⟨_, rfl⟩ ⟨_, rfl⟩
  exact absurd (show 0 = 2 from this) (by decide)

/-! ### Adjoints -/

open ComplexConjugate

/-- **C107.** The adjoint of a diagram is well formed, has inputs and outputs exchanged, and its matrix is the conjugate transpose.
Missing from C107: diagrams with a global phase (`c107_global`). -/
theorem c107_adjoint_partial {D : Diagram} (h : D.Good) (hd : ∀ v ∈ D.inputs, v ∉ D.outputs) (hg : D.globalPhase.isZero) :
    D.adjoint.Good ∧ D.adjoint.inputs = D.outputs ∧ D.adjoint.outputs = D.inputs ∧
    ∀ ρ y x, entry ρ D.adjoint y x = conj (entry ρ D x y) := by
  refine ⟨invert_good D h, rfl, rfl, fun ρ y x => ?_⟩
  unfold entry
  show val ρ D.invert (bitsOf D.outputs D.inputs x y) = _
  rw [bitsOf_swap hd, invert_val, Phase.u_of_isZero ρ hg, one_pow, one_mul]

/-- **C107.** With a global phase, the matrix is the conjugate transpose up to the square of that phase. -/
theorem c107_adjoint_phase {D : Diagram} (hd : ∀ v ∈ D.inputs, v ∉ D.outputs) (ρ : ℕ → ℝ) (y x : ℕ → Bool) :
    entry ρ D.adjoint y x = D.globalPhase.u ρ ^ 2 * conj (entry ρ D x y) := by
  unfold entry
  show val ρ D.invert (bitsOf D.outputs D.inputs x y) = _
  rw [bitsOf_swap hd, invert_val]

/-- **C107.** The adjoint of the adjoint is the diagram. -/
theorem c107_twice {D : Diagram} (h : D.Ranged) : D.adjoint.adjoint = D := by
  obtain ⟨n, vt, aj, dl, ins, outs, nv, ne, gp⟩ := D
  unfold adjoint invert
  simp only [mk.injEq, true_and, and_true]
  funext v
  cases hv : vt v with
  | none => rfl
  | some d =>
    simp only [Option.map_some]
    rw [neg_neg_phase (h v d hv)]

/-- The example above: `i` becomes `-i`, and the Hadamard edge is at the input. -/
example (ρ : ℕ → ℝ) (y x : ℕ → Bool) : entry ρ xWire.adjoint y x =
    if x 0 then (if y 0 then Complex.I else -Complex.I) else 1 := by
  rw [(c107_adjoint_partial xWire_good (by decide) ⟨rfl, rfl⟩).2.2.2]
  unfold entry
  rw [xWire_val]
  have e0 : bitsOf xWire.inputs xWire.outputs y x 0 = y 0 := rfl
  have e2 : bitsOf xWire.inputs xWire.outputs y x 2 = x 0 := rfl
  rw [e0, e2]
  cases x 0 <;> cases y 0 <;> simp

/-! The global phase is not inverted. -/

def phaseD : Diagram := { xWire with globalPhase := Phase.ofRat (1 / 2) }

/-- **C107 fails.** With the global phase `i`, the matrix of the adjoint diagram is not even proportional to the conjugate transpose
by a positive factor. -/
theorem c107_global : phaseD.Good ∧ ¬ ∃ k : ℝ, 0 < k ∧ ∀ ρ y x, entry ρ phaseD.adjoint y x = k * conj (entry ρ phaseD x y) := by
  constructor
  · obtain ⟨⟨i1, i2, i3, i4, i5, i6, i7⟩, a, b, c⟩ := xWire_good
    exact ⟨⟨i1, i2, i3, i4, i5, i6, i7⟩, a, b, c⟩
  · rintro ⟨k, hk, h⟩
    have e := h (fun _ => 0) (fun _ => false) (fun _ => false)
    rw [c107_adjoint_phase (by decide)] at e
    have e1 : entry (fun _ => 0) phaseD (fun _ => false) (fun _ => false) = Complex.I := by
      have : val (fun _ => 0) phaseD (bitsOf phaseD.inputs phaseD.outputs (fun _ => false) fun _ => false) =
          (Phase.ofRat (1 / 2)).u (fun _ => 0) * ((Phase.zero.u fun _ => 0)⁻¹ *
            val (fun _ => 0) xWire (bitsOf xWire.inputs xWire.outputs (fun _ => false) fun _ => false)) := by
        unfold val
        rw [show xWire.globalPhase = Phase.zero from rfl, ← mul_assoc ((Phase.zero.u fun _ => 0)⁻¹),
          inv_mul_cancel₀ (Phase.u_ne_zero _ _), one_mul]
        rfl
      unfold entry
      rw [this, half_u, xWire_val, Phase.u_zero]
      simp [bitsOf, xWire, ofLists]
    rw [e1, show phaseD.globalPhase = Phase.ofRat (1 / 2) from rfl, half_u] at e
    have := congrArg Complex.im e
    simp [pow_two] at this
    linarith

end MQT.ZX
