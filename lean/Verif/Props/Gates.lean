import Verif.IR.StdOp
import Verif.IR.Commute
import Mathlib.LinearAlgebra.Matrix.Kronecker
import Mathlib.Analysis.SpecialFunctions.Complex.Circle

/-! C17, C18, C64: operation types, unitarity of the gate matrices, and the gates they stand for. -/

set_option autoImplicit false
set_option linter.unusedSectionVars false
set_option linter.unusedSimpArgs false

namespace MQT.IR

open Real OpType
open scoped Kronecker

/-! ### C17 -/

/-- The types of the neutral-atom "activate all" family have no entry in the name table. -/
def unnamed : OpType → Bool
  | atrue | afalse | multiatrue | multiafalse => true
  | _ => false

/-- **C17.** Reading back the printed name of an operation type gives the type — for every type
except the four that the name table does not list. -/
theorem c17_names_roundtrip_partial (ty : OpType) (h : unnamed ty = false) :
    OpType.fromStr ty.toStr = some ty := by
  cases ty <;> first | rfl | exact absurd h (by decide)

/-- **C17 (violated).** The name of every type outside the table is rejected. -/
theorem c17_names_unlisted (ty : OpType) (h : unnamed ty = true) :
    OpType.fromStr ty.toStr = Option.none := by
  cases ty <;> first | rfl | exact absurd h (by decide)

/-- The full statement of the first part of C17 is false. -/
theorem c17_names_roundtrip_fails : ¬ ∀ ty : OpType, OpType.fromStr ty.toStr = some ty := by
  intro h
  have := h atrue
  rw [c17_names_unlisted atrue rfl] at this
  cases this

/-- Different types have different numeric values and different names. -/
theorem c17_codes_distinct (a b : OpType) (h : a.code = b.code) : a = b := by
  have : ∀ ty : OpType, ofCode ty.code = some ty := by intro ty; cases ty <;> decide
  have h1 := this a
  rw [h, this b] at h1
  exact (Option.some.inj h1).symm

example : OpType.fromStr "mcphase" = some p ∧ OpType.fromStr "cnot" = some x ∧
    OpType.fromStr "xx_minus_yy" = some xxminusyy ∧ OpType.fromStr "foo" = Option.none := by decide

/-- **C17.** The diagonal flag is set exactly for the gates whose matrix is diagonal for all
parameters (single-qubit gates). -/
theorem c17_diagonal_single (ty : OpType) (h : ty.isSingleQubitGate = true) :
    ty.isDiagonal = true ↔ ∀ ps M, gate1 ty ps = some M → IsDiagM M := by
  constructor
  · intro hd ps M hM; exact gate1_diag hd hM
  · intro hall
    by_contra hd
    have hs : ∀ a : ℝ, (∃ M, gate1 ty [a, a, a] = some M) := by
      intro a
      cases ty <;> first | exact ⟨_, rfl⟩ | exact absurd h (by decide)
    obtain ⟨M, hM⟩ := hs π
    have hz := hall [π, π, π] M hM false true (by decide)
    revert hd hM hz h
    have r0 : r2 ≠ 0 := by intro h0; have := r2_sq; rw [h0] at this; norm_num at this
    cases ty <;> intro h hd hM hz <;>
      first
        | exact absurd h (by decide)
        | exact absurd rfl hd
        | (simp only [gate1, List.getElem?_cons_zero, List.getElem?_cons_succ, Option.map_some,
            Option.some.injEq] at hM
           subst hM
           simp [mat1, uMat, u2Mat, rxMat, ryMat, Complex.ext_iff, r0] at hz)

/-- **C17.** The same for two-qubit gates. -/
theorem c17_diagonal_two (ty : OpType) (h : ty.isTwoQubitGate = true) :
    ty.isDiagonal = true ↔ ∀ ps M, gate2 ty ps = some M → IsDiagM M := by
  constructor
  · intro hd ps M hM; exact gate2_diag hd hM
  · intro hall
    by_contra hd
    have hs : ∀ a : ℝ, (∃ M, gate2 ty [a, a, a] = some M) := by
      intro a
      cases ty <;> first | exact ⟨_, rfl⟩ | exact absurd h (by decide)
    obtain ⟨M, hM⟩ := hs π
    have hz1 := hall [π, π, π] M hM (false, true) (true, false) (by decide)
    have hz2 := hall [π, π, π] M hM (false, false) (true, true) (by decide)
    have hz3 := hall [π, π, π] M hM (false, false) (false, true) (by decide)
    have hz4 := hall [π, π, π] M hM (false, false) (true, false) (by decide)
    have r0 : r2 ≠ 0 := by intro h0; have := r2_sq; rw [h0] at this; norm_num at this
    revert hd hM hz1 hz2 hz3 hz4 h
    cases ty <;> intro h hd hM hz1 hz2 hz3 hz4 <;>
      first
        | exact absurd h (by decide)
        | exact absurd rfl hd
        | (simp only [gate2, List.getElem?_cons_zero, List.getElem?_cons_succ, Option.map_some,
            Option.some.injEq] at hM
           subst hM
           first
             | (simp [mat2, rxxMat, ryyMat, rzxMat, xxMinusYYMat, xxPlusYYMat, Complex.ext_iff, r0]
                 at hz1; done)
             | (simp [mat2, rxxMat, ryyMat, rzxMat, xxMinusYYMat, xxPlusYYMat, Complex.ext_iff, r0]
                 at hz2; done)
             | (simp [mat2, rxxMat, ryyMat, rzxMat, xxMinusYYMat, xxPlusYYMat, Complex.ext_iff, r0]
                 at hz3; done)
             | (simp [mat2] at hz4))

/-- The types for which the simulator obtains the inverse by flipping the inverse flag. -/
def flips : OpType → Bool
  | s | sdg | t | tdg | v | vdg | sx | sxdg | iswap | iswapdg | peres | peresdg => true
  | _ => false

/-- **C17.** Flipping the inverse flag of a type of the simulator's list gives the type of the
inverse gate: the product of the two matrices is the identity. -/
theorem c17_flip_inverse (ty : OpType) (h : flips ty = true) :
    ∃ ty', ty.flipInv = some ty' ∧ ty'.flipInv = some ty ∧ ty' ≠ ty ∧
      (∀ ps M, gate1 ty ps = some M → ∃ N, gate1 ty' ps = some N ∧ N * M = 1 ∧ M * N = 1) ∧
      (∀ ps M, gate2 ty ps = some M → ∃ N, gate2 ty' ps = some N ∧ N * M = 1 ∧ M * N = 1) := by
  have key : ∃ ty', ty.flipInv = some ty' ∧ ty'.flipInv = some ty ∧ ty' ≠ ty := by
    revert h; cases ty <;> intro h <;> first | exact absurd h (by decide) | exact ⟨_, rfl, rfl, by decide⟩
  obtain ⟨ty', h1, h2, h3⟩ := key
  refine ⟨ty', h1, h2, h3, ?_, ?_⟩
  · intro ps M hM
    refine ⟨M.conjTranspose, ?_, (gate1_unitary _ _ _ hM).2, (gate1_unitary _ _ _ hM).1⟩
    have hi := StdOp.ddInvert_isInv (o := ⟨ty, ps, ∅, []⟩) (o' := ⟨ty', ps, ∅, []⟩) (by
      revert h h1; cases ty <;> intro h h1 <;> first | exact absurd h (by decide) | simp [StdOp.ddInvert, h1])
    refine (hi.single ?_).2.2 M hM
    revert hM; cases ty <;> simp [gate1, isSingleQubitGate]
  · intro ps M hM
    refine ⟨M.conjTranspose, ?_, (gate2_unitary _ _ _ hM).2, (gate2_unitary _ _ _ hM).1⟩
    have hi := StdOp.ddInvert_isInv (o := ⟨ty, ps, ∅, [0, 1]⟩) (o' := ⟨ty', ps, ∅, [0, 1]⟩) (by
      revert h h1; cases ty <;> intro h h1 <;> first | exact absurd h (by decide) | simp [StdOp.ddInvert, h1])
    have ht : ty.isTwoQubitGate = true := by
      revert hM; cases ty <;> simp [gate2, isTwoQubitGate]
    rcases (hi.two ht).2 M hM with ⟨-, d⟩ | ⟨q0, q1, c, d, e⟩ | c
    · exact d
    · simp only [List.cons.injEq, and_true] at c d; omega
    · exact absurd rfl c

example : OpType.flipInv t = some tdg ∧ OpType.flipInv peresdg = some peres ∧
    OpType.flipInv x = Option.none := by decide

/-! ### C18 -/

/-- Number of parameters each gate type needs. -/
def nparams : OpType → ℕ
  | u => 3
  | u2 | xxminusyy | xxplusyy => 2
  | p | rx | ry | rz | rxx | ryy | rzz | rzx | gphase => 1
  | _ => 0

/-- **C18.** Every single-qubit gate type has a matrix as soon as enough parameters are given, and
that matrix is unitary. -/
theorem c18_single_unitary (ty : OpType) (h : ty.isSingleQubitGate = true) (ps : List ℝ)
    (hp : nparams ty ≤ ps.length) :
    ∃ M, gate1 ty ps = some M ∧ M * M.conjTranspose = 1 ∧ M.conjTranspose * M = 1 := by
  have hM : ∃ M, gate1 ty ps = some M := by
    rcases ps with _ | ⟨a, _ | ⟨b, _ | ⟨c, l⟩⟩⟩ <;> revert h hp <;> cases ty <;> intro h hp <;>
      first
        | exact ⟨_, rfl⟩
        | exact absurd h (by decide)
        | (simp [nparams] at hp)
  obtain ⟨M, hM⟩ := hM
  exact ⟨M, hM, (gate1_unitary _ _ _ hM).1, (gate1_unitary _ _ _ hM).2⟩

/-- **C18.** The same for two-qubit gates. -/
theorem c18_two_unitary (ty : OpType) (h : ty.isTwoQubitGate = true) (ps : List ℝ)
    (hp : nparams ty ≤ ps.length) :
    ∃ M, gate2 ty ps = some M ∧ M * M.conjTranspose = 1 ∧ M.conjTranspose * M = 1 := by
  have hM : ∃ M, gate2 ty ps = some M := by
    rcases ps with _ | ⟨a, _ | ⟨b, l⟩⟩ <;> revert h hp <;> cases ty <;> intro h hp <;>
      first
        | exact ⟨_, rfl⟩
        | exact absurd h (by decide)
        | (simp [nparams] at hp)
  obtain ⟨M, hM⟩ := hM
  exact ⟨M, hM, (gate2_unitary _ _ _ hM).1, (gate2_unitary _ _ _ hM).2⟩

/-- **C18.** Types that are not gates have no matrix at all. -/
theorem c18_no_matrix (ty : OpType) (ps : List ℝ) :
    ((gate1 ty ps).isSome = true → ty.isSingleQubitGate = true) ∧
    ((gate2 ty ps).isSome = true → ty.isTwoQubitGate = true) := by
  constructor <;> cases ty <;> simp [gate1, gate2, isSingleQubitGate, isTwoQubitGate]

example : ∃ M, gate1 u [1, 2, 3] = some M ∧ M * M.conjTranspose = 1 ∧ M.conjTranspose * M = 1 :=
  c18_single_unitary u rfl _ (by simp [nparams])

example : gate1 u [1, 2] = Option.none := rfl

/-! ### C64: which gates the matrices are

The specification is written with Pauli matrices, exponentials and maps of basis states. -/

noncomputable section

/-- Bit flip. -/
def pauliX : Mat1 := fun r c => if r = c then 0 else 1
/-- Sign flip. -/
def pauliZ : Mat1 := Matrix.diagonal fun b => if b then -1 else 1
def pauliY : Mat1 := Complex.I • (pauliX * pauliZ)
/-- Phase `e^{iθ}` on `|1⟩`. -/
def phaseM (θ : ℝ) : Mat1 := Matrix.diagonal fun b => if b then Complex.exp (θ * Complex.I) else 1
/-- `exp(-iθA/2)` for an involution `A`. -/
def rot {n : Type} [DecidableEq n] (θ : ℝ) (A : Matrix n n ℂ) : Matrix n n ℂ :=
  (Real.cos (θ / 2) : ℂ) • 1 - (Complex.I * Real.sin (θ / 2)) • A
/-- Matrix of a map of two-bit basis states. -/
def permM (f : Bool × Bool → Bool × Bool) : Mat2 := fun r c => if r = f c then 1 else 0

/-- The documented single-qubit gates. -/
def spec1 (ty : OpType) (ps : List ℝ) : Option Mat1 :=
  match ty, ps with
  | i, _ => some 1
  | h, _ => some ((1 / Real.sqrt 2 : ℂ) • (pauliX + pauliZ))
  | x, _ => some pauliX
  | y, _ => some pauliY
  | z, _ => some pauliZ
  | s, _ => some (phaseM (π / 2))
  | sdg, _ => some (phaseM (-(π / 2)))
  | t, _ => some (phaseM (π / 4))
  | tdg, _ => some (phaseM (-(π / 4)))
  | sx, _ => some (((1 + Complex.I) / 2) • 1 + ((1 - Complex.I) / 2) • pauliX)
  | sxdg, _ => some (((1 - Complex.I) / 2) • 1 + ((1 + Complex.I) / 2) • pauliX)
  | v, _ => some (rot (π / 2) pauliX)
  | vdg, _ => some (rot (-(π / 2)) pauliX)
  | u, theta :: phi :: lam :: _ =>
    some (Complex.exp (((phi + lam) / 2 : ℝ) * Complex.I) •
      (rot phi pauliZ * rot theta pauliY * rot lam pauliZ))
  | u2, phi :: lam :: _ =>
    some (Complex.exp (((phi + lam) / 2 : ℝ) * Complex.I) •
      (rot phi pauliZ * rot (π / 2) pauliY * rot lam pauliZ))
  | p, a :: _ => some (phaseM a)
  | rx, a :: _ => some (rot a pauliX)
  | ry, a :: _ => some (rot a pauliY)
  | rz, a :: _ => some (rot a pauliZ)
  | _, _ => Option.none

/-- The documented two-qubit gates (first tensor factor = first target). -/
def spec2 (ty : OpType) (ps : List ℝ) : Option Mat2 :=
  match ty, ps with
  | swap, _ => some (permM Prod.swap)
  | iswap, _ => some (permM Prod.swap * Matrix.diagonal fun c => if c.1 = c.2 then 1 else Complex.I)
  | iswapdg, _ =>
    some (permM Prod.swap * Matrix.diagonal fun c => if c.1 = c.2 then 1 else -Complex.I)
  | peres, _ => some (permM fun c => (!c.1, xor c.1 c.2))
  | peresdg, _ => some (permM fun c => (!c.1, xor (!c.1) c.2))
  | dcx, _ => some (permM fun c => (c.2, xor c.1 c.2))
  | ecr, _ => some ((1 / Real.sqrt 2 : ℂ) • (pauliX ⊗ₖ 1 - pauliY ⊗ₖ pauliX))
  | rxx, a :: _ => some (rot a (pauliX ⊗ₖ pauliX))
  | ryy, a :: _ => some (rot a (pauliY ⊗ₖ pauliY))
  | rzz, a :: _ => some (rot a (pauliZ ⊗ₖ pauliZ))
  | rzx, a :: _ => some (rot a (pauliZ ⊗ₖ pauliX))
  | xxminusyy, a :: b :: _ =>
    some ((phaseM b ⊗ₖ 1) * (rot (a / 2) (pauliX ⊗ₖ pauliX) * rot (-(a / 2)) (pauliY ⊗ₖ pauliY)) *
      (phaseM (-b) ⊗ₖ 1))
  | xxplusyy, a :: b :: _ =>
    some ((1 ⊗ₖ phaseM b) * (rot (a / 2) (pauliX ⊗ₖ pauliX) * rot (a / 2) (pauliY ⊗ₖ pauliY)) *
      (1 ⊗ₖ phaseM (-b)))
  | _, _ => Option.none

end

theorem pauliX_eq : pauliX = mat1 0 1 1 0 := by apply mat1_ext <;> rfl
theorem pauliZ_eq : pauliZ = mat1 1 0 0 (-1) := by
  apply mat1_ext <;> simp [pauliZ, mat1]
theorem smul_mat1 (k a b c d : ℂ) : k • mat1 a b c d = mat1 (k * a) (k * b) (k * c) (k * d) := by
  apply mat1_ext <;> rfl
theorem add_mat1 (a b c d a' b' c' d' : ℂ) :
    mat1 a b c d + mat1 a' b' c' d' = mat1 (a + a') (b + b') (c + c') (d + d') := by
  apply mat1_ext <;> rfl
theorem sub_mat1 (a b c d a' b' c' d' : ℂ) :
    mat1 a b c d - mat1 a' b' c' d' = mat1 (a - a') (b - b') (c - c') (d - d') := by
  apply mat1_ext <;> rfl
theorem pauliY_eq : pauliY = mat1 0 ⟨0, -1⟩ ⟨0, 1⟩ 0 := by
  rw [pauliY, pauliX_eq, pauliZ_eq, mat1_mul, smul_mat1]
  apply mat1_congr <;> apply Complex.ext <;> simp
theorem exp_mk (θ : ℝ) : Complex.exp (θ * Complex.I) = ⟨cos θ, sin θ⟩ := by
  apply Complex.ext
  · simp [Complex.exp_ofReal_mul_I_re]
  · simp [Complex.exp_ofReal_mul_I_im]
theorem phaseM_eq (θ : ℝ) : phaseM θ = mat1 1 0 0 ⟨cos θ, sin θ⟩ := by
  rw [← exp_mk]
  apply mat1_ext <;> simp [phaseM, mat1]
theorem rot_mat1 (θ : ℝ) (a b c d : ℂ) : rot θ (mat1 a b c d) =
    mat1 (⟨cos (θ / 2), 0⟩ - ⟨0, sin (θ / 2)⟩ * a) (-(⟨0, sin (θ / 2)⟩ * b))
      (-(⟨0, sin (θ / 2)⟩ * c)) (⟨cos (θ / 2), 0⟩ - ⟨0, sin (θ / 2)⟩ * d) := by
  have e : (Complex.I * (Real.sin (θ / 2) : ℂ)) = ⟨0, sin (θ / 2)⟩ := by
    apply Complex.ext <;> simp [-Complex.ofReal_sin]
  have e' : ((Real.cos (θ / 2) : ℝ) : ℂ) = ⟨cos (θ / 2), 0⟩ := rfl
  rw [rot, one_eq_mat1, e, e', smul_mat1, smul_mat1, sub_mat1]
  apply mat1_congr <;> ring
theorem kron_mat1 (a b c d a' b' c' d' : ℂ) :
    mat1 a b c d ⊗ₖ mat1 a' b' c' d' =
      mat2 (a * a') (a * b') (b * a') (b * b') (a * c') (a * d') (b * c') (b * d')
        (c * a') (c * b') (d * a') (d * b') (c * c') (c * d') (d * c') (d * d') := by
  ext ⟨r0, r1⟩ ⟨c0, c1⟩
  cases r0 <;> cases r1 <;> cases c0 <;> cases c1 <;> rfl
theorem mat2_ext {M N : Mat2} (h : ∀ r0 r1 c0 c1, M (r0, r1) (c0, c1) = N (r0, r1) (c0, c1)) :
    M = N := by
  ext ⟨r0, r1⟩ ⟨c0, c1⟩; exact h r0 r1 c0 c1
theorem smul_mat2 (k a00 a01 a02 a03 a10 a11 a12 a13 a20 a21 a22 a23 a30 a31 a32 a33 : ℂ) :
    k • mat2 a00 a01 a02 a03 a10 a11 a12 a13 a20 a21 a22 a23 a30 a31 a32 a33 =
      mat2 (k * a00) (k * a01) (k * a02) (k * a03) (k * a10) (k * a11) (k * a12) (k * a13)
        (k * a20) (k * a21) (k * a22) (k * a23) (k * a30) (k * a31) (k * a32) (k * a33) := by
  apply mat2_ext; intro r0 r1 c0 c1
  cases r0 <;> cases r1 <;> cases c0 <;> cases c1 <;> rfl
theorem sub_mat2 (a00 a01 a02 a03 a10 a11 a12 a13 a20 a21 a22 a23 a30 a31 a32 a33
    b00 b01 b02 b03 b10 b11 b12 b13 b20 b21 b22 b23 b30 b31 b32 b33 : ℂ) :
    mat2 a00 a01 a02 a03 a10 a11 a12 a13 a20 a21 a22 a23 a30 a31 a32 a33 -
      mat2 b00 b01 b02 b03 b10 b11 b12 b13 b20 b21 b22 b23 b30 b31 b32 b33 =
      mat2 (a00 - b00) (a01 - b01) (a02 - b02) (a03 - b03) (a10 - b10) (a11 - b11) (a12 - b12)
        (a13 - b13) (a20 - b20) (a21 - b21) (a22 - b22) (a23 - b23) (a30 - b30) (a31 - b31)
        (a32 - b32) (a33 - b33) := by
  apply mat2_ext; intro r0 r1 c0 c1
  cases r0 <;> cases r1 <;> cases c0 <;> cases c1 <;> rfl
theorem rot_mat2 (θ : ℝ) (a00 a01 a02 a03 a10 a11 a12 a13 a20 a21 a22 a23 a30 a31 a32 a33 : ℂ) :
    rot θ (mat2 a00 a01 a02 a03 a10 a11 a12 a13 a20 a21 a22 a23 a30 a31 a32 a33) =
      let c : ℂ := ⟨cos (θ / 2), 0⟩
      let k : ℂ := ⟨0, sin (θ / 2)⟩
      mat2 (c - k * a00) (-(k * a01)) (-(k * a02)) (-(k * a03)) (-(k * a10)) (c - k * a11)
        (-(k * a12)) (-(k * a13)) (-(k * a20)) (-(k * a21)) (c - k * a22) (-(k * a23))
        (-(k * a30)) (-(k * a31)) (-(k * a32)) (c - k * a33) := by
  have e : (Complex.I * (Real.sin (θ / 2) : ℂ)) = ⟨0, sin (θ / 2)⟩ := by
    apply Complex.ext <;> simp [-Complex.ofReal_sin]
  have e' : ((Real.cos (θ / 2) : ℝ) : ℂ) = ⟨cos (θ / 2), 0⟩ := rfl
  dsimp only
  rw [rot, one_eq_mat2, e, e', smul_mat2, smul_mat2, sub_mat2]
  apply mat2_congr <;> ring
theorem inv_sqrt2 : (1 / Real.sqrt 2 : ℂ) = ⟨r2, 0⟩ := by
  have h2 : Real.sqrt 2 ≠ 0 := by positivity
  have e : (1 / Real.sqrt 2 : ℝ) = r2 := by
    have := Real.mul_self_sqrt (show (0 : ℝ) ≤ 2 by norm_num)
    rw [r2]; field_simp; linarith
  have : (1 / Real.sqrt 2 : ℂ) = ((1 / Real.sqrt 2 : ℝ) : ℂ) := by push_cast; rfl
  rw [this, e]; rfl

theorem uMat_spec (lam phi theta : ℝ) : uMat lam phi theta =
    Complex.exp (((phi + lam) / 2 : ℝ) * Complex.I) •
      (rot phi pauliZ * rot theta pauliY * rot lam pauliZ) := by
  rw [exp_mk, pauliZ_eq, pauliY_eq, rot_mat1, rot_mat1, rot_mat1, mat1_mul, mat1_mul, smul_mat1,
    uMat, show (phi + lam) / 2 = phi / 2 + lam / 2 by ring]
  have h1 := Real.sin_sq_add_cos_sq (phi / 2)
  have h2 := Real.sin_sq_add_cos_sq (lam / 2)
  have e1 : cos phi = 2 * cos (phi / 2) ^ 2 - 1 := by rw [← Real.cos_two_mul]; ring_nf
  have e2 : sin phi = 2 * sin (phi / 2) * cos (phi / 2) := by rw [← Real.sin_two_mul]; ring_nf
  have e3 : cos lam = 2 * cos (lam / 2) ^ 2 - 1 := by rw [← Real.cos_two_mul]; ring_nf
  have e4 : sin lam = 2 * sin (lam / 2) * cos (lam / 2) := by rw [← Real.sin_two_mul]; ring_nf
  simp only [Real.cos_add, Real.sin_add, e1, e2, e3, e4]
  generalize cos (phi / 2) = a at *
  generalize sin (phi / 2) = b at *
  generalize cos (lam / 2) = c at *
  generalize sin (lam / 2) = d at *
  generalize cos (theta / 2) = e at *
  generalize sin (theta / 2) = f at *
  apply mat1_congr <;> cplx <;> first | ring1 | grind

macro "gate_spec" : tactic => `(tactic| (
  simp only [gate1, gate2, spec1, spec2, List.getElem?_cons_zero, List.getElem?_cons_succ,
    List.getElem?_nil, Option.map_some, Option.map_none, Option.some.injEq]))

/-- **C64.** The single-qubit matrices of the simulator are the documented gates, for every type
and every parameter list (and there is no matrix when a parameter is missing). -/
theorem c64_single_qubit_gates (ty : OpType) (ps : List ℝ) : gate1 ty ps = spec1 ty ps := by
  have half : ∀ a : ℝ, -a / 2 = -(a / 2) := fun a => by ring
  have q1 : cos (π / 4) = r2 := by rw [Real.cos_pi_div_four, r2]
  have q2 : sin (π / 4) = r2 := by rw [Real.sin_pi_div_four, r2]
  have q3 : π / 2 / 2 = π / 4 := by ring
  rcases ps with _ | ⟨a, _ | ⟨b, _ | ⟨c, l⟩⟩⟩ <;> cases ty <;> gate_spec <;>
    first
      | rfl
      | exact one_eq_mat1.symm
      | exact uMat_spec _ _ _
      | (rw [← uMat_spec, uMat, u2Mat, q3, q1, q2])
      | (simp only [inv_sqrt2, pauliX_eq, pauliZ_eq, pauliY_eq, phaseM_eq, rot_mat1, one_eq_mat1,
          smul_mat1, add_mat1, half, q3, Real.cos_neg, Real.sin_neg, q1, q2, Real.cos_pi_div_two,
          Real.sin_pi_div_two, rxMat, ryMat, rzMat, pMat]
         try (apply mat1_congr <;> apply Complex.ext <;> simp <;> ring1))

macro "mat2_cases" : tactic => `(tactic| (
  apply mat2_ext; intro r0 r1 c0 c1
  cases r0 <;> cases r1 <;> cases c0 <;> cases c1))

theorem swap_spec : mat2 1 0 0 0 0 0 1 0 0 1 0 0 0 0 0 1 = permM Prod.swap := by
  mat2_cases <;> simp [mat2, permM]
theorem peres_spec : mat2 0 0 0 1 0 0 1 0 1 0 0 0 0 1 0 0 =
    permM fun c => (!c.1, xor c.1 c.2) := by
  mat2_cases <;> simp [mat2, permM]
theorem peresdg_spec : mat2 0 0 1 0 0 0 0 1 0 1 0 0 1 0 0 0 =
    permM fun c => (!c.1, xor (!c.1) c.2) := by
  mat2_cases <;> simp [mat2, permM]
theorem dcx_spec : mat2 1 0 0 0 0 0 1 0 0 0 0 1 0 1 0 0 = permM fun c => (c.2, xor c.1 c.2) := by
  mat2_cases <;> simp [mat2, permM]
theorem iswap_spec : mat2 1 0 0 0 0 0 ⟨0, 1⟩ 0 0 ⟨0, 1⟩ 0 0 0 0 0 1 =
    permM Prod.swap * Matrix.diagonal fun c => if c.1 = c.2 then 1 else Complex.I := by
  mat2_cases <;> simp [mat2, permM, Matrix.mul_diagonal, Complex.ext_iff]
theorem iswapdg_spec : mat2 1 0 0 0 0 0 ⟨0, -1⟩ 0 0 ⟨0, -1⟩ 0 0 0 0 0 1 =
    permM Prod.swap * Matrix.diagonal fun c => if c.1 = c.2 then 1 else -Complex.I := by
  mat2_cases <;> simp [mat2, permM, Matrix.mul_diagonal, Complex.ext_iff]
theorem ecr_spec : mat2 0 0 ⟨r2, 0⟩ ⟨0, r2⟩ 0 0 ⟨0, r2⟩ ⟨r2, 0⟩ ⟨r2, 0⟩ ⟨0, -r2⟩ 0 0
      ⟨0, -r2⟩ ⟨r2, 0⟩ 0 0 =
    (1 / Real.sqrt 2 : ℂ) • (pauliX ⊗ₖ 1 - pauliY ⊗ₖ pauliX) := by
  rw [inv_sqrt2, pauliX_eq, pauliY_eq, one_eq_mat1, kron_mat1, kron_mat1, sub_mat2, smul_mat2]
  apply mat2_congr <;> cplx <;> ring1
theorem rxx_spec (a : ℝ) : rxxMat a = rot a (pauliX ⊗ₖ pauliX) := by
  rw [pauliX_eq, kron_mat1, rot_mat2, rxxMat]
  apply mat2_congr <;> cplx <;> ring1
theorem ryy_spec (a : ℝ) : ryyMat a = rot a (pauliY ⊗ₖ pauliY) := by
  rw [pauliY_eq, kron_mat1, rot_mat2, ryyMat]
  apply mat2_congr <;> cplx <;> ring1
theorem rzz_spec (a : ℝ) : rzzMat a = rot a (pauliZ ⊗ₖ pauliZ) := by
  rw [pauliZ_eq, kron_mat1, rot_mat2, rzzMat]
  apply mat2_congr <;> cplx <;> ring1
theorem rzx_spec (a : ℝ) : rzxMat a = rot a (pauliZ ⊗ₖ pauliX) := by
  rw [pauliZ_eq, pauliX_eq, kron_mat1, rot_mat2, rzxMat]
  apply mat2_congr <;> cplx <;> ring1

theorem core_spec (a : ℝ) :
    rot (a / 2) (pauliX ⊗ₖ pauliX) * rot (-(a / 2)) (pauliY ⊗ₖ pauliY) =
      mat2 ⟨cos (a / 2), 0⟩ 0 0 ⟨0, -sin (a / 2)⟩ 0 1 0 0 0 0 1 0
        ⟨0, -sin (a / 2)⟩ 0 0 ⟨cos (a / 2), 0⟩ := by
  rw [← rxx_spec, ← ryy_spec, rxxMat, ryyMat]
  rw [mat2_mul]
  have h1 := Real.sin_sq_add_cos_sq (a / 2 / 2)
  have e1 : cos (a / 2) = 2 * cos (a / 2 / 2) ^ 2 - 1 := by rw [← Real.cos_two_mul]; ring_nf
  have e2 : sin (a / 2) = 2 * sin (a / 2 / 2) * cos (a / 2 / 2) := by
    rw [← Real.sin_two_mul]; ring_nf
  rw [show -(a / 2) / 2 = -(a / 2 / 2) by ring, Real.cos_neg, Real.sin_neg, e1, e2]
  generalize cos (a / 2 / 2) = c at *
  generalize sin (a / 2 / 2) = d at *
  apply mat2_congr <;> cplx <;> first | ring1 | grind

theorem core_spec' (a : ℝ) :
    rot (a / 2) (pauliX ⊗ₖ pauliX) * rot (a / 2) (pauliY ⊗ₖ pauliY) =
      mat2 1 0 0 0 0 ⟨cos (a / 2), 0⟩ ⟨0, -sin (a / 2)⟩ 0 0 ⟨0, -sin (a / 2)⟩ ⟨cos (a / 2), 0⟩ 0
        0 0 0 1 := by
  rw [← rxx_spec, ← ryy_spec, rxxMat, ryyMat]
  rw [mat2_mul]
  have h1 := Real.sin_sq_add_cos_sq (a / 2 / 2)
  have e1 : cos (a / 2) = 2 * cos (a / 2 / 2) ^ 2 - 1 := by rw [← Real.cos_two_mul]; ring_nf
  have e2 : sin (a / 2) = 2 * sin (a / 2 / 2) * cos (a / 2 / 2) := by
    rw [← Real.sin_two_mul]; ring_nf
  rw [e1, e2]
  generalize cos (a / 2 / 2) = c at *
  generalize sin (a / 2 / 2) = d at *
  apply mat2_congr <;> cplx <;> first | ring1 | grind

theorem xxMinusYY_spec (a b : ℝ) : xxMinusYYMat a b =
    (phaseM b ⊗ₖ 1) * (rot (a / 2) (pauliX ⊗ₖ pauliX) * rot (-(a / 2)) (pauliY ⊗ₖ pauliY)) *
      (phaseM (-b) ⊗ₖ 1) := by
  rw [core_spec, phaseM_eq, phaseM_eq, one_eq_mat1, kron_mat1, kron_mat1, mat2_mul, mat2_mul,
    xxMinusYYMat, Real.cos_neg, Real.sin_neg]
  have h1 := Real.sin_sq_add_cos_sq b
  apply mat2_congr <;> cplx <;> first | ring1 | grind

theorem xxPlusYY_spec (a b : ℝ) : xxPlusYYMat a b =
    (1 ⊗ₖ phaseM b) * (rot (a / 2) (pauliX ⊗ₖ pauliX) * rot (a / 2) (pauliY ⊗ₖ pauliY)) *
      (1 ⊗ₖ phaseM (-b)) := by
  rw [core_spec', phaseM_eq, phaseM_eq, one_eq_mat1, kron_mat1, kron_mat1, mat2_mul, mat2_mul,
    xxPlusYYMat, Real.cos_neg, Real.sin_neg]
  have h1 := Real.sin_sq_add_cos_sq b
  apply mat2_congr <;> cplx <;> first | ring1 | grind

/-- **C64.** The two-qubit matrices. -/
theorem c64_two_qubit_gates (ty : OpType) (ps : List ℝ) : gate2 ty ps = spec2 ty ps := by
  rcases ps with _ | ⟨a, _ | ⟨b, l⟩⟩ <;> cases ty <;> gate_spec <;>
    first
      | exact swap_spec | exact peres_spec | exact peresdg_spec | exact dcx_spec
      | exact iswap_spec | exact iswapdg_spec | exact ecr_spec | exact rxx_spec a
      | exact ryy_spec a | exact rzz_spec a | exact rzx_spec a | exact xxMinusYY_spec a b
      | exact xxPlusYY_spec a b

/-- The Hadamard matrix exchanges the bit and the sign flip (a consequence, as a sanity check of
the specification). -/
example : gate1 x [] = some pauliX ∧ gate1 h [] = some ((1 / Real.sqrt 2 : ℂ) • (pauliX + pauliZ)) :=
  ⟨c64_single_qubit_gates x [], c64_single_qubit_gates h []⟩

example (a : ℝ) : gate2 rzx [a] = some (rot a (pauliZ ⊗ₖ pauliX)) := c64_two_qubit_gates rzx [a]

end MQT.IR
