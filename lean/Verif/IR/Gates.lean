/-
Gate matrices used by the simulator.

Source: `src/dd/GateMatrixDefinitions.cpp` lines 25-226 (`uMat` … `xxPlusYYMat`,
`opToSingleQubitGateMatrix`, `opToTwoQubitGateMatrix`).

Simplification: `fp` (double) is replaced by `ℝ`, `std::complex<fp>` by `ℂ`, `SQRT2_2` by the
exact `√2/2`.  Entries are copied one by one in row-major order.  `params.at(k)` throws when the
vector is too short; the model returns `none`.
-/
import Verif.IR.OpType
import Verif.IR.Semantics
import Mathlib.Analysis.SpecialFunctions.Trigonometric.Basic
import Mathlib.Tactic.LinearCombination
import Mathlib.Tactic.NormNum

set_option autoImplicit false

namespace MQT.IR

open Real OpType

/-- `GateMatrix{a, b, c, d}` (row-major). -/
def mat1 (a b c d : ℂ) : Mat1 := fun r q =>
  match r, q with
  | false, false => a
  | false, true => b
  | true, false => c
  | true, true => d

/-- `TwoQubitGateMatrix{{...}}`; rows and columns are indexed by `2*b0 + b1`. -/
def mat2 (a00 a01 a02 a03 a10 a11 a12 a13 a20 a21 a22 a23 a30 a31 a32 a33 : ℂ) : Mat2 :=
  fun r q =>
    match r, q with
    | (false, false), (false, false) => a00
    | (false, false), (false, true) => a01
    | (false, false), (true, false) => a02
    | (false, false), (true, true) => a03
    | (false, true), (false, false) => a10
    | (false, true), (false, true) => a11
    | (false, true), (true, false) => a12
    | (false, true), (true, true) => a13
    | (true, false), (false, false) => a20
    | (true, false), (false, true) => a21
    | (true, false), (true, false) => a22
    | (true, false), (true, true) => a23
    | (true, true), (false, false) => a30
    | (true, true), (false, true) => a31
    | (true, true), (true, false) => a32
    | (true, true), (true, true) => a33

/-- `SQRT2_2`. -/
noncomputable def r2 : ℝ := √2 / 2

/-- `uMat(lambda, phi, theta)` (25-33). -/
noncomputable def uMat (lambda phi theta : ℝ) : Mat1 :=
  mat1 ⟨cos (theta / 2), 0⟩ ⟨-cos lambda * sin (theta / 2), -sin lambda * sin (theta / 2)⟩
    ⟨cos phi * sin (theta / 2), sin phi * sin (theta / 2)⟩
    ⟨cos (lambda + phi) * cos (theta / 2), sin (lambda + phi) * cos (theta / 2)⟩

/-- `u2Mat(lambda, phi)` (35-41). -/
noncomputable def u2Mat (lambda phi : ℝ) : Mat1 :=
  mat1 ⟨r2, 0⟩ ⟨-cos lambda * r2, -sin lambda * r2⟩ ⟨cos phi * r2, sin phi * r2⟩
    ⟨cos (lambda + phi) * r2, sin (lambda + phi) * r2⟩

/-- `pMat` (43-45). -/
noncomputable def pMat (lambda : ℝ) : Mat1 := mat1 1 0 0 ⟨cos lambda, sin lambda⟩

/-- `rxMat` (47-52). -/
noncomputable def rxMat (lambda : ℝ) : Mat1 :=
  mat1 ⟨cos (lambda / 2), 0⟩ ⟨0, -sin (lambda / 2)⟩ ⟨0, -sin (lambda / 2)⟩ ⟨cos (lambda / 2), 0⟩

/-- `ryMat` (54-59). -/
noncomputable def ryMat (lambda : ℝ) : Mat1 :=
  mat1 ⟨cos (lambda / 2), 0⟩ ⟨-sin (lambda / 2), 0⟩ ⟨sin (lambda / 2), 0⟩ ⟨cos (lambda / 2), 0⟩

/-- `rzMat` (61-66). -/
noncomputable def rzMat (lambda : ℝ) : Mat1 :=
  mat1 ⟨cos (lambda / 2), -sin (lambda / 2)⟩ 0 0 ⟨cos (lambda / 2), sin (lambda / 2)⟩

/-- `rxxMat` (68-76). -/
noncomputable def rxxMat (theta : ℝ) : Mat2 :=
  let c : ℂ := ⟨cos (theta / 2), 0⟩
  let s : ℝ := sin (theta / 2)
  mat2 c 0 0 ⟨0, -s⟩
       0 c ⟨0, -s⟩ 0
       0 ⟨0, -s⟩ c 0
       ⟨0, -s⟩ 0 0 c

/-- `ryyMat` (78-86). -/
noncomputable def ryyMat (theta : ℝ) : Mat2 :=
  let c : ℂ := ⟨cos (theta / 2), 0⟩
  let s : ℝ := sin (theta / 2)
  mat2 c 0 0 ⟨0, s⟩
       0 c ⟨0, -s⟩ 0
       0 ⟨0, -s⟩ c 0
       ⟨0, s⟩ 0 0 c

/-- `rzzMat` (88-96). -/
noncomputable def rzzMat (theta : ℝ) : Mat2 :=
  let c : ℝ := cos (theta / 2)
  let s : ℝ := sin (theta / 2)
  mat2 ⟨c, -s⟩ 0 0 0
       0 ⟨c, s⟩ 0 0
       0 0 ⟨c, s⟩ 0
       0 0 0 ⟨c, -s⟩

/-- `rzxMat` (98-106). -/
noncomputable def rzxMat (theta : ℝ) : Mat2 :=
  let c : ℂ := ⟨cos (theta / 2), 0⟩
  let s : ℝ := sin (theta / 2)
  mat2 c ⟨0, -s⟩ 0 0
       ⟨0, -s⟩ c 0 0
       0 0 c ⟨0, s⟩
       0 0 ⟨0, s⟩ c

/-- `xxMinusYYMat` (108-120). -/
noncomputable def xxMinusYYMat (theta beta : ℝ) : Mat2 :=
  let c : ℂ := ⟨cos (theta / 2), 0⟩
  let s : ℝ := sin (theta / 2)
  mat2 c 0 0 ⟨-sin beta * s, -cos beta * s⟩
       0 1 0 0
       0 0 1 0
       ⟨sin beta * s, -cos beta * s⟩ 0 0 c

/-- `xxPlusYYMat` (122-133). -/
noncomputable def xxPlusYYMat (theta beta : ℝ) : Mat2 :=
  let c : ℂ := ⟨cos (theta / 2), 0⟩
  let s : ℝ := sin (theta / 2)
  mat2 1 0 0 0
       0 c ⟨sin beta * s, -cos beta * s⟩ 0
       0 ⟨-sin beta * s, -cos beta * s⟩ c 0
       0 0 0 1

/-- `opToSingleQubitGateMatrix` (138-188). -/
noncomputable def gate1 (ty : OpType) (ps : List ℝ) : Option Mat1 :=
  match ty with
  | i => some (mat1 1 0 0 1)
  | h => some (mat1 ⟨r2, 0⟩ ⟨r2, 0⟩ ⟨r2, 0⟩ ⟨-r2, 0⟩)
  | x => some (mat1 0 1 1 0)
  | y => some (mat1 0 ⟨0, -1⟩ ⟨0, 1⟩ 0)
  | z => some (mat1 1 0 0 (-1))
  | s => some (mat1 1 0 0 ⟨0, 1⟩)
  | sdg => some (mat1 1 0 0 ⟨0, -1⟩)
  | t => some (mat1 1 0 0 ⟨r2, r2⟩)
  | tdg => some (mat1 1 0 0 ⟨r2, -r2⟩)
  | sx => some (mat1 ⟨1/2, 1/2⟩ ⟨1/2, -1/2⟩ ⟨1/2, -1/2⟩ ⟨1/2, 1/2⟩)
  | sxdg => some (mat1 ⟨1/2, -1/2⟩ ⟨1/2, 1/2⟩ ⟨1/2, 1/2⟩ ⟨1/2, -1/2⟩)
  | v => some (mat1 ⟨r2, 0⟩ ⟨0, -r2⟩ ⟨0, -r2⟩ ⟨r2, 0⟩)
  | vdg => some (mat1 ⟨r2, 0⟩ ⟨0, r2⟩ ⟨0, r2⟩ ⟨r2, 0⟩)
  | u => match ps[2]?, ps[1]?, ps[0]? with
    | some a, some b, some c => some (uMat a b c)
    | _, _, _ => Option.none
  | u2 => match ps[1]?, ps[0]? with
    | some a, some b => some (u2Mat a b)
    | _, _ => Option.none
  | p => ps[0]?.map pMat
  | rx => ps[0]?.map rxMat
  | ry => ps[0]?.map ryMat
  | rz => ps[0]?.map rzMat
  | _ => Option.none

/-- `opToTwoQubitGateMatrix` (190-226). -/
noncomputable def gate2 (ty : OpType) (ps : List ℝ) : Option Mat2 :=
  match ty with
  | swap => some (mat2 1 0 0 0  0 0 1 0  0 1 0 0  0 0 0 1)
  | iswap => some (mat2 1 0 0 0  0 0 ⟨0, 1⟩ 0  0 ⟨0, 1⟩ 0 0  0 0 0 1)
  | iswapdg => some (mat2 1 0 0 0  0 0 ⟨0, -1⟩ 0  0 ⟨0, -1⟩ 0 0  0 0 0 1)
  | ecr => some (mat2 0 0 ⟨r2, 0⟩ ⟨0, r2⟩
                      0 0 ⟨0, r2⟩ ⟨r2, 0⟩
                      ⟨r2, 0⟩ ⟨0, -r2⟩ 0 0
                      ⟨0, -r2⟩ ⟨r2, 0⟩ 0 0)
  | dcx => some (mat2 1 0 0 0  0 0 1 0  0 0 0 1  0 1 0 0)
  | peres => some (mat2 0 0 0 1  0 0 1 0  1 0 0 0  0 1 0 0)
  | peresdg => some (mat2 0 0 1 0  0 0 0 1  0 1 0 0  1 0 0 0)
  | rxx => ps[0]?.map rxxMat
  | ryy => ps[0]?.map ryyMat
  | rzz => ps[0]?.map rzzMat
  | rzx => ps[0]?.map rzxMat
  | xxminusyy => match ps[0]?, ps[1]? with
    | some a, some b => some (xxMinusYYMat a b)
    | _, _ => Option.none
  | xxplusyy => match ps[0]?, ps[1]? with
    | some a, some b => some (xxPlusYYMat a b)
    | _, _ => Option.none
  | _ => Option.none

/-! ### Arithmetic facts -/

theorem r2_sq : r2 * r2 = 1 / 2 := by
  unfold r2
  have := Real.mul_self_sqrt (show (0 : ℝ) ≤ 2 by norm_num)
  linear_combination this / 4

/-- Complex conjugation of a pair. -/
theorem star_mk (a b : ℝ) : star (⟨a, b⟩ : ℂ) = ⟨a, -b⟩ := rfl

theorem mat1_ext {M N : Mat1} (h00 : M false false = N false false)
    (h01 : M false true = N false true) (h10 : M true false = N true false)
    (h11 : M true true = N true true) : M = N := by
  ext r c; cases r <;> cases c <;> assumption

theorem conjTranspose_mat1 (a b c d : ℂ) :
    (mat1 a b c d).conjTranspose = mat1 (star a) (star c) (star b) (star d) := by
  apply mat1_ext <;> rfl

theorem conjTranspose_mat2 (a00 a01 a02 a03 a10 a11 a12 a13 a20 a21 a22 a23 a30 a31 a32 a33 : ℂ) :
    (mat2 a00 a01 a02 a03 a10 a11 a12 a13 a20 a21 a22 a23 a30 a31 a32 a33).conjTranspose =
      mat2 (star a00) (star a10) (star a20) (star a30) (star a01) (star a11) (star a21) (star a31)
        (star a02) (star a12) (star a22) (star a32) (star a03) (star a13) (star a23)
        (star a33) := by
  ext ⟨r0, r1⟩ ⟨c0, c1⟩
  cases r0 <;> cases r1 <;> cases c0 <;> cases c1 <;> rfl

theorem mat1_mul (a b c d a' b' c' d' : ℂ) :
    mat1 a b c d * mat1 a' b' c' d' =
      mat1 (a * a' + b * c') (a * b' + b * d') (c * a' + d * c') (c * b' + d * d') := by
  apply mat1_ext <;> simp only [Matrix.mul_apply, Fintype.sum_bool, mat1] <;> ring

theorem one_eq_mat1 : (1 : Mat1) = mat1 1 0 0 1 := by
  apply mat1_ext <;> simp [mat1]

theorem one_eq_mat2 : (1 : Mat2) = mat2 1 0 0 0 0 1 0 0 0 0 1 0 0 0 0 1 := by
  ext ⟨r0, r1⟩ ⟨c0, c1⟩
  cases r0 <;> cases r1 <;> cases c0 <;> cases c1 <;> simp [mat2]

theorem mat2_mul (a00 a01 a02 a03 a10 a11 a12 a13 a20 a21 a22 a23 a30 a31 a32 a33
    b00 b01 b02 b03 b10 b11 b12 b13 b20 b21 b22 b23 b30 b31 b32 b33 : ℂ) :
    mat2 a00 a01 a02 a03 a10 a11 a12 a13 a20 a21 a22 a23 a30 a31 a32 a33 *
      mat2 b00 b01 b02 b03 b10 b11 b12 b13 b20 b21 b22 b23 b30 b31 b32 b33 =
    mat2 (a00 * b00 + a01 * b10 + a02 * b20 + a03 * b30)
         (a00 * b01 + a01 * b11 + a02 * b21 + a03 * b31)
         (a00 * b02 + a01 * b12 + a02 * b22 + a03 * b32)
         (a00 * b03 + a01 * b13 + a02 * b23 + a03 * b33)
         (a10 * b00 + a11 * b10 + a12 * b20 + a13 * b30)
         (a10 * b01 + a11 * b11 + a12 * b21 + a13 * b31)
         (a10 * b02 + a11 * b12 + a12 * b22 + a13 * b32)
         (a10 * b03 + a11 * b13 + a12 * b23 + a13 * b33)
         (a20 * b00 + a21 * b10 + a22 * b20 + a23 * b30)
         (a20 * b01 + a21 * b11 + a22 * b21 + a23 * b31)
         (a20 * b02 + a21 * b12 + a22 * b22 + a23 * b32)
         (a20 * b03 + a21 * b13 + a22 * b23 + a23 * b33)
         (a30 * b00 + a31 * b10 + a32 * b20 + a33 * b30)
         (a30 * b01 + a31 * b11 + a32 * b21 + a33 * b31)
         (a30 * b02 + a31 * b12 + a32 * b22 + a33 * b32)
         (a30 * b03 + a31 * b13 + a32 * b23 + a33 * b33) := by
  ext ⟨r0, r1⟩ ⟨c0, c1⟩
  cases r0 <;> cases r1 <;> cases c0 <;> cases c1 <;>
    simp only [Matrix.mul_apply, Fintype.sum_prod_type, Fintype.sum_bool, mat2] <;> ring

theorem mat1_congr {a b c d a' b' c' d' : ℂ} (h1 : a = a') (h2 : b = b') (h3 : c = c')
    (h4 : d = d') : mat1 a b c d = mat1 a' b' c' d' := by rw [h1, h2, h3, h4]

theorem mat2_congr {a00 a01 a02 a03 a10 a11 a12 a13 a20 a21 a22 a23 a30 a31 a32 a33
    b00 b01 b02 b03 b10 b11 b12 b13 b20 b21 b22 b23 b30 b31 b32 b33 : ℂ}
    (h00 : a00 = b00) (h01 : a01 = b01) (h02 : a02 = b02) (h03 : a03 = b03)
    (h10 : a10 = b10) (h11 : a11 = b11) (h12 : a12 = b12) (h13 : a13 = b13)
    (h20 : a20 = b20) (h21 : a21 = b21) (h22 : a22 = b22) (h23 : a23 = b23)
    (h30 : a30 = b30) (h31 : a31 = b31) (h32 : a32 = b32) (h33 : a33 = b33) :
    mat2 a00 a01 a02 a03 a10 a11 a12 a13 a20 a21 a22 a23 a30 a31 a32 a33 =
    mat2 b00 b01 b02 b03 b10 b11 b12 b13 b20 b21 b22 b23 b30 b31 b32 b33 := by
  subst_vars; rfl

/-! ### Unitarity -/

/-- Prove an identity of complex numbers given by real and imaginary parts. -/
macro "cplx" : tactic => `(tactic| (
  apply Complex.ext <;>
  simp only [Complex.add_re, Complex.add_im, Complex.mul_re, Complex.mul_im, Complex.one_re,
    Complex.one_im, Complex.zero_re, Complex.zero_im, Complex.sub_re, Complex.sub_im, Complex.neg_re, Complex.neg_im, star_mk,
    star_one, star_zero, star_neg]))

/-- `M` is unitary. -/
def Unitary {n : Type} [Fintype n] [DecidableEq n] (M : Matrix n n ℂ) : Prop :=
  M * M.conjTranspose = 1 ∧ M.conjTranspose * M = 1

macro "unitary1" : tactic => `(tactic| (
  unfold Unitary; constructor <;>
  (rw [conjTranspose_mat1, mat1_mul, one_eq_mat1]; apply mat1_congr <;> cplx <;> first | ring1 | grind)))

macro "unitary2" : tactic => `(tactic| (
  unfold Unitary; constructor <;>
  (rw [conjTranspose_mat2, mat2_mul, one_eq_mat2]; apply mat2_congr <;> cplx <;> first | ring1 | grind)))

theorem uMat_unitary (a b c : ℝ) : Unitary (uMat a b c) := by
  have h1 := Real.sin_sq_add_cos_sq (c / 2)
  have h2 := Real.sin_sq_add_cos_sq a
  have h3 := Real.sin_sq_add_cos_sq b
  simp only [uMat, Real.cos_add, Real.sin_add]
  generalize sin (c / 2) = s1 at *; generalize cos (c / 2) = c1 at *
  generalize sin a = s2 at *; generalize cos a = c2 at *
  generalize sin b = s3 at *; generalize cos b = c3 at *
  unitary1

theorem u2Mat_unitary (a b : ℝ) : Unitary (u2Mat a b) := by
  have h1 := r2_sq
  have h2 := Real.sin_sq_add_cos_sq a
  have h3 := Real.sin_sq_add_cos_sq b
  simp only [u2Mat, Real.cos_add, Real.sin_add]
  generalize sin a = s2 at *; generalize cos a = c2 at *
  generalize sin b = s3 at *; generalize cos b = c3 at *
  unitary1

theorem gate1_unitary (ty : OpType) (ps : List ℝ) (M : Mat1) (hM : gate1 ty ps = some M) :
    Unitary M := by
  have hr := r2_sq
  unfold gate1 at hM
  split at hM
  case h_14 =>
    split at hM
    · injection hM with hM; subst hM; exact uMat_unitary _ _ _
    · cases hM
  case h_15 =>
    split at hM
    · injection hM with hM; subst hM; exact u2Mat_unitary _ _
    · cases hM
  case h_16 =>
    rw [Option.map_eq_some_iff] at hM
    obtain ⟨a, -, rfl⟩ := hM
    have h1 := Real.sin_sq_add_cos_sq a
    unfold pMat; unitary1
  case h_17 =>
    rw [Option.map_eq_some_iff] at hM
    obtain ⟨a, -, rfl⟩ := hM
    have h1 := Real.sin_sq_add_cos_sq (a / 2)
    unfold rxMat; unitary1
  case h_18 =>
    rw [Option.map_eq_some_iff] at hM
    obtain ⟨a, -, rfl⟩ := hM
    have h1 := Real.sin_sq_add_cos_sq (a / 2)
    unfold ryMat; unitary1
  case h_19 =>
    rw [Option.map_eq_some_iff] at hM
    obtain ⟨a, -, rfl⟩ := hM
    have h1 := Real.sin_sq_add_cos_sq (a / 2)
    unfold rzMat; unitary1
  case h_20 => cases hM
  all_goals (injection hM with hM; subst hM; unitary1)

theorem rxxMat_unitary (a : ℝ) : Unitary (rxxMat a) := by
  have h1 := Real.sin_sq_add_cos_sq (a / 2)
  unfold rxxMat; dsimp only; unitary2

theorem ryyMat_unitary (a : ℝ) : Unitary (ryyMat a) := by
  have h1 := Real.sin_sq_add_cos_sq (a / 2)
  unfold ryyMat; dsimp only; unitary2

theorem rzzMat_unitary (a : ℝ) : Unitary (rzzMat a) := by
  have h1 := Real.sin_sq_add_cos_sq (a / 2)
  unfold rzzMat; dsimp only; unitary2

theorem rzxMat_unitary (a : ℝ) : Unitary (rzxMat a) := by
  have h1 := Real.sin_sq_add_cos_sq (a / 2)
  unfold rzxMat; dsimp only; unitary2

theorem xxMinusYYMat_unitary (a b : ℝ) : Unitary (xxMinusYYMat a b) := by
  have h1 := Real.sin_sq_add_cos_sq (a / 2)
  have h2 := Real.sin_sq_add_cos_sq b
  unfold xxMinusYYMat; dsimp only; unitary2

theorem xxPlusYYMat_unitary (a b : ℝ) : Unitary (xxPlusYYMat a b) := by
  have h1 := Real.sin_sq_add_cos_sq (a / 2)
  have h2 := Real.sin_sq_add_cos_sq b
  unfold xxPlusYYMat; dsimp only; unitary2

theorem ecr_unitary : Unitary (mat2 0 0 ⟨r2, 0⟩ ⟨0, r2⟩
      0 0 ⟨0, r2⟩ ⟨r2, 0⟩ ⟨r2, 0⟩ ⟨0, -r2⟩ 0 0 ⟨0, -r2⟩ ⟨r2, 0⟩ 0 0) := by
  have hr := r2_sq
  unitary2

theorem gate2_unitary (ty : OpType) (ps : List ℝ) (M : Mat2) (hM : gate2 ty ps = some M) :
    Unitary M := by
  unfold gate2 at hM
  split at hM
  case h_4 => injection hM with hM; subst hM; exact ecr_unitary
  case h_8 =>
    rw [Option.map_eq_some_iff] at hM
    obtain ⟨a, -, rfl⟩ := hM
    exact rxxMat_unitary a
  case h_9 =>
    rw [Option.map_eq_some_iff] at hM
    obtain ⟨a, -, rfl⟩ := hM
    exact ryyMat_unitary a
  case h_10 =>
    rw [Option.map_eq_some_iff] at hM
    obtain ⟨a, -, rfl⟩ := hM
    exact rzzMat_unitary a
  case h_11 =>
    rw [Option.map_eq_some_iff] at hM
    obtain ⟨a, -, rfl⟩ := hM
    exact rzxMat_unitary a
  case h_12 =>
    split at hM
    · injection hM with hM; subst hM; exact xxMinusYYMat_unitary _ _
    · cases hM
  case h_13 =>
    split at hM
    · injection hM with hM; subst hM; exact xxPlusYYMat_unitary _ _
    · cases hM
  case h_14 => cases hM
  all_goals (injection hM with hM; subst hM; unitary2)

end MQT.IR
