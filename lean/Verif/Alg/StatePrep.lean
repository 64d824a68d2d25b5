/-
State preparation (`src/algorithms/StatePreparation.cpp`).

Simplifications: vectors of `2^s` angles or amplitudes are functions of the index; arithmetic is exact;
`multiplex` returns its flattened list of operations (`flattenOperations`, 153, is the subject of C23).
-/
import Verif.Alg.QFT
import Verif.IR.Circuit
import Mathlib.Analysis.SpecialFunctions.Complex.Arg
import Mathlib.Analysis.SpecialFunctions.Trigonometric.Inverse

set_option autoImplicit false

noncomputable section

open Classical
open Function (update)

namespace MQT.Alg

open MQT.IR MQT.Opt MQT.Sim

/-! ### Model -/

/-- `twoNorm` (33-40) of the first `len` entries. -/
def twoNormR (len : ℕ) (v : ℕ → ℝ) : ℝ := √(∑ i ∈ Finset.range len, v i ^ 2)
def twoNormC (len : ℕ) (v : ℕ → ℂ) : ℝ := √(∑ i ∈ Finset.range len, Complex.normSq (v i))

/-- The matrix of lines 121: `{{0.5, 0.5}, {0.5, -0.5}}`. -/
def halfMat (i j : ℕ) : ℝ := if i = 1 ∧ j = 1 then -(1 / 2) else 1 / 2

/-- Entry of `kroneckerProduct(matrix, identity)` (48-74, 121-123) with `identity` of size `N`. -/
def angleWeight (N i j : ℕ) : ℝ := halfMat (i / N) (j / N) * if i % N = j % N then 1 else 0

/-- `matrixVectorProd(angleWeights, angles)` (84-97, 125). -/
def weighted (N : ℕ) (a : ℕ → ℝ) (i : ℕ) : ℝ := ∑ j ∈ Finset.range (2 * N), angleWeight N i j * a j

/-- `cx(control, target)`. -/
def cxOp (c t : ℕ) : StdOp ℝ := { type := .x, controls := {(c, true)}, targets := [t] }

/-- `multiplex` (108-157) for `2^s` angles, i.e. on `s + 1` qubits. -/
def multiplex (ty : OpType) : ℕ → (ℕ → ℝ) → Bool → List (StdOp ℝ)
  | 0, a, _ => [{ type := ty, params := [a 0], targets := [0] }]
  | s + 1, a, lastCnot =>
    let b := weighted (2 ^ s) a
    multiplex ty s b false ++ [cxOp (s + 1) 0] ++
      (multiplex ty s (fun i => b (i + 2 ^ s)) false).reverse ++ if lastCnot then [cxOp (s + 1) 0] else []

/-- `blochAngles` (159-177): remaining amplitude, `theta`, `phi`. -/
def blochAngles (eps : ℝ) (a b : ℂ) : ℂ × ℝ × ℝ :=
  let finalR := √(‖a‖ ^ 2 + ‖b‖ ^ 2)
  if finalR > eps then
    let t := a.arg + b.arg
    (finalR * cis (t / 2), 2 * Real.arccos (‖a‖ / finalR), b.arg - a.arg)
  else (finalR * cis (0 / 2), 0, 0)

/-- `rotationsToDisentangle` (181-204): the three vectors. -/
def remaining (eps : ℝ) (A : ℕ → ℂ) (i : ℕ) : ℂ := (blochAngles eps (A (2 * i)) (A (2 * i + 1))).1
def thetas (eps : ℝ) (A : ℕ → ℂ) (i : ℕ) : ℝ := -(blochAngles eps (A (2 * i)) (A (2 * i + 1))).2.1
def phis (eps : ℝ) (A : ℕ → ℂ) (i : ℕ) : ℝ := -(blochAngles eps (A (2 * i)) (A (2 * i + 1))).2.2

/-- Adding `i` to all qubits of an operation (230-241). -/
def shiftOp (i : ℕ) (o : StdOp ℝ) : StdOp ℝ :=
  { o with targets := o.targets.map (· + i), controls := o.controls.image fun c => (c.1 + i, true) }

/-- `QuantumComputation::asOperation` (QuantumComputation.cpp 709-719) of a non-empty circuit. -/
def asOperation (l : List (StdOp ℝ)) : UOp ℝ :=
  match l with
  | [o] => .std o
  | l => .compound (l.map .std)

/-- The body of the loop of `gatesToUncompute` (213-263) on qubit `i`, for `2^(s+1)` amplitudes. -/
def disentangle (eps : ℝ) (s i : ℕ) (A : ℕ → ℂ) : List (UOp ℝ) :=
  let ph := phis eps A
  let th := thetas eps A
  let phisNorm := twoNormR (2 ^ s) ph
  let thetasNorm := twoNormR (2 ^ s) th
  let addLastCnot := !decide (phisNorm > eps ∧ thetasNorm > eps)
  (if phisNorm > eps then [asOperation ((multiplex .rz s ph addLastCnot).map (shiftOp i))] else []) ++
  (if thetasNorm > eps then [asOperation ((multiplex .ry s th addLastCnot).reverse.map (shiftOp i))] else [])

/-- The loop of `gatesToUncompute` (212-264) from qubit `i` on, with `r` qubits left. -/
def uncompute (eps : ℝ) : ℕ → ℕ → (ℕ → ℂ) → List (UOp ℝ) × (ℕ → ℂ)
  | 0, _, A => ([], A)
  | s + 1, i, A =>
    let rest := uncompute eps s (i + 1) (remaining eps A)
    (disentangle eps s i A ++ rest.1, rest.2)

/-- `gatesToUncompute` (207-272).  The sum over the remaining amplitudes has one term. -/
def gatesToUncompute (eps : ℝ) (n : ℕ) (A : ℕ → ℂ) : QC :=
  let r := uncompute eps n 0 A
  let arg := (r.2 0).arg
  { ops := r.1
    gphase := if |arg| > eps then gphaseStep 1 0 arg else 0
    init := (List.range n).map fun q => (q, q)
    out := (List.range n).map fun q => (q, q) }

/-- `createStatePreparationCircuit` (275-300). -/
def createStatePreparation (eps : ℝ) (v : List ℂ) : Res QC :=
  if ¬ |1 - twoNormC v.length (fun i => v.getD i 0)| < eps then .throw
  else if v = [] ∨ v.length &&& (v.length - 1) ≠ 0 then .throw
  else match (gatesToUncompute eps (Nat.log2 v.length) fun i => v.getD i 0).invert with
    | some c => .ok c
    | none => .throw

/-! ### Multiplexed rotations -/

/-- The rotation matrices. -/
def rotMat (ty : OpType) (θ : ℝ) : Mat1 := if ty = .rz then rzMat θ else ryMat θ

/-- Rotate qubit `off` by an angle that depends on the other qubits. -/
def muxF (ty : OpType) (off : ℕ) (θ : Bits → ℝ) (ψ : State) : State := fun x =>
  ∑ b : Bool, rotMat ty (θ x) (x off) b * ψ (update x off b)

/-- The number in the `s` qubits from `off` on. -/
def num (off s : ℕ) (x : Bits) : ℕ := ∑ k ∈ Finset.range s, bitv (x (off + k)) * 2 ^ k

theorem num_congr {off s : ℕ} {x y : Bits} (h : ∀ k < s, x (off + k) = y (off + k)) : num off s x = num off s y :=
  Finset.sum_congr rfl fun k hk => by rw [h k (Finset.mem_range.1 hk)]

theorem num_update {off s q : ℕ} (x : Bits) (b : Bool) (h : q < off ∨ off + s ≤ q) :
    num off s (update x q b) = num off s x :=
  num_congr fun k hk => Function.update_of_ne (by omega) _ _

theorem num_succ (off s : ℕ) (x : Bits) : num off (s + 1) x = num off s x + bitv (x (off + s)) * 2 ^ s := by
  unfold num; rw [Finset.sum_range_succ]

theorem num_succ' (off s : ℕ) (x : Bits) : num off (s + 1) x = bitv (x off) + 2 * num (off + 1) s x := by
  unfold num
  rw [Finset.sum_range_succ', Finset.mul_sum, add_comm]
  congr 1
  · simp
  · exact Finset.sum_congr rfl fun k _ => by rw [show off + (k + 1) = off + 1 + k by omega, pow_succ]; ring

theorem num_lt (off s : ℕ) (x : Bits) : num off s x < 2 ^ s := by
  induction s with
  | zero => simp [num]
  | succ s ih =>
    rw [num_succ, pow_succ]
    have : bitv (x (off + s)) ≤ 1 := by unfold bitv; split_ifs <;> omega
    nlinarith

theorem rot_add {ty : OpType} (α β : ℝ) (i j : Bool) :
    ∑ b : Bool, rotMat ty α i b * rotMat ty β b j = rotMat ty (α + β) i j := by
  rw [Fintype.sum_bool]
  unfold rotMat
  split_ifs
  · have e : ∀ t : ℝ, rzMat t = mat1 (cis (-(t / 2))) 0 0 (cis (t / 2)) := by
      intro t; unfold rzMat; rw [← cis_eq, ← cis_eq, Real.cos_neg, Real.sin_neg]
    rw [e, e, e, show -((α + β) / 2) = -(α / 2) + -(β / 2) by ring, show (α + β) / 2 = α / 2 + β / 2 by ring,
      cis_add, cis_add]
    cases i <;> cases j <;> simp [mat1]
  · unfold ryMat
    rw [show (α + β) / 2 = α / 2 + β / 2 by ring, Real.cos_add, Real.sin_add]
    cases i <;> cases j <;> simp [mat1, Complex.ext_iff] <;> ring

theorem rot_neg {ty : OpType} (α : ℝ) (i j : Bool) : rotMat ty α (!i) (!j) = rotMat ty (-α) i j := by
  unfold rotMat
  split_ifs
  · unfold rzMat
    rw [neg_div, Real.cos_neg, Real.sin_neg]
    cases i <;> cases j <;> simp [mat1]
  · unfold ryMat
    rw [neg_div, Real.cos_neg, Real.sin_neg]
    cases i <;> cases j <;> simp [mat1]

theorem rot_zero {ty : OpType} (i j : Bool) : rotMat ty 0 i j = if i = j then 1 else 0 := by
  unfold rotMat
  by_cases h : ty = .rz
  · rw [if_pos h]; cases i <;> cases j <;> simp [rzMat, mat1, Complex.ext_iff]
  · rw [if_neg h]; cases i <;> cases j <;> simp [ryMat, mat1, Complex.ext_iff]

theorem muxF_comp (ty : OpType) (off : ℕ) {θ1 θ2 : Bits → ℝ} (h1 : ∀ x b, θ1 (update x off b) = θ1 x) (ψ : State) :
    muxF ty off θ2 (muxF ty off θ1 ψ) = muxF ty off (fun x => θ2 x + θ1 x) ψ := by
  funext x
  unfold muxF
  simp only [Function.update_self, Function.update_idem, h1]
  simp only [Finset.mul_sum]
  rw [Finset.sum_comm]
  refine Finset.sum_congr rfl fun j _ => ?_
  rw [← rot_add, Finset.sum_mul]
  exact Finset.sum_congr rfl fun b _ => by ring

theorem cxMap_eq (c t : ℕ) (x : Bits) : cxMap c t x = if x c = true then update x t (!x t) else x := by
  unfold cxMap
  cases hc : x c
  · simp
  · simp

/-- Conjugation by a CNOT negates the angle where the control is set. -/
theorem mux_cx (ty : OpType) {off m : ℕ} (hm : m ≠ off) {θ : Bits → ℝ} (h : ∀ x b, θ (update x off b) = θ x)
    (ψ : State) : pull (cxMap m off) (muxF ty off θ (pull (cxMap m off) ψ))
      = muxF ty off (fun x => if x m = true then -θ x else θ x) ψ := by
  funext x
  unfold pull muxF
  cases hx : x m
  · have e : cxMap m off x = x := by rw [cxMap_eq, hx]; simp
    rw [e]
    refine Finset.sum_congr rfl fun b _ => ?_
    have e' : cxMap m off (update x off b) = update x off b := by
      rw [cxMap_eq, Function.update_of_ne hm, hx]; simp
    simp only [e', hx, Bool.false_eq_true, if_false]
  · have e : cxMap m off x = update x off (!x off) := by rw [cxMap_eq, hx]; simp
    rw [e, h]
    simp only [Function.update_self, Function.update_idem]
    have e' : ∀ b, cxMap m off (update x off b) = update x off (!b) := by
      intro b
      rw [cxMap_eq, Function.update_of_ne hm, hx]; simp
    simp only [e']
    rw [Fintype.sum_bool, Fintype.sum_bool]
    have n1 := rot_neg (ty := ty) (θ x) (x off) true
    have n2 := rot_neg (ty := ty) (θ x) (x off) false
    simp only [Bool.not_true, Bool.not_false] at n1 n2
    simp only [hx, if_true, Bool.not_true, Bool.not_false]
    rw [← n1, ← n2, add_comm]

theorem cx_cx (c t : ℕ) (h : c ≠ t) (ψ : State) : pull (cxMap c t) (pull (cxMap c t) ψ) = ψ := by
  funext x
  unfold pull
  rw [cxMap_cxMap h]

/-- CNOTs with the same target commute. -/
theorem cx_comm (c c' t : ℕ) (h : c ≠ t) (h' : c' ≠ t) (ψ : State) :
    pull (cxMap c t) (pull (cxMap c' t) ψ) = pull (cxMap c' t) (pull (cxMap c t) ψ) := by
  funext x
  unfold pull
  congr 1
  rw [cxMap_eq c, cxMap_eq c']
  cases hc : x c <;> cases hc' : x c' <;> simp [cxMap_eq, hc, hc', h, h']

/-! ### The multiplexer circuit -/

/-- `multiplex` on the qubits from `off` on. -/
def multiplexAt (ty : OpType) (off : ℕ) : ℕ → (ℕ → ℝ) → Bool → List (StdOp ℝ)
  | 0, a, _ => [{ type := ty, params := [a 0], targets := [off] }]
  | s + 1, a, lastCnot =>
    let b := weighted (2 ^ s) a
    multiplexAt ty off s b false ++ [cxOp (s + 1 + off) off] ++
      (multiplexAt ty off s (fun i => b (i + 2 ^ s)) false).reverse ++
      if lastCnot then [cxOp (s + 1 + off) off] else []

theorem shift_cx (off c t : ℕ) : shiftOp off (cxOp c t) = cxOp (c + off) (t + off) := by
  simp [shiftOp, cxOp]

theorem multiplex_shift (ty : OpType) (off s : ℕ) (a : ℕ → ℝ) (l : Bool) :
    (multiplex ty s a l).map (shiftOp off) = multiplexAt ty off s a l := by
  induction s generalizing a l with
  | zero => simp [multiplex, multiplexAt, shiftOp]
  | succ s ih =>
    simp only [multiplex, multiplexAt, List.map_append, List.map_reverse, ih, List.map_cons, List.map_nil,
      shift_cx, Nat.zero_add]
    cases l <;> simp [shift_cx]

theorem weighted_eq (s : ℕ) (a : ℕ → ℝ) (i : ℕ) (hi : i < 2 ^ s) :
    weighted (2 ^ s) a i = (a i + a (i + 2 ^ s)) / 2 ∧
      weighted (2 ^ s) a (i + 2 ^ s) = (a i - a (i + 2 ^ s)) / 2 := by
  have hp : 0 < 2 ^ s := Nat.two_pow_pos s
  generalize 2 ^ s = N at *
  have hsplit : ∀ f : ℕ → ℝ, ∑ j ∈ Finset.range (2 * N), f j
      = ∑ j ∈ Finset.range N, f j + ∑ j ∈ Finset.range N, f (j + N) := by
    intro f
    rw [two_mul, Finset.sum_range_add]
    congr 1
    exact Finset.sum_congr rfl fun j _ => by rw [add_comm]
  have d1 : ∀ j < N, j / N = 0 ∧ j % N = j := fun j hj => ⟨Nat.div_eq_of_lt hj, Nat.mod_eq_of_lt hj⟩
  have d2 : ∀ j < N, (j + N) / N = 1 ∧ (j + N) % N = j := fun j hj => by
    rw [Nat.add_div_right j hp, Nat.div_eq_of_lt hj, Nat.add_mod_right, Nat.mod_eq_of_lt hj]
    exact ⟨rfl, rfl⟩
  have pick : ∀ (g : ℕ → ℝ) (c : ℝ), ∑ j ∈ Finset.range N, (c * if i = j then 1 else 0) * g j = c * g i := by
    intro g c
    rw [Finset.sum_eq_single i]
    · simp
    · intro j _ hne; rw [if_neg (Ne.symm hne)]; ring
    · intro h; exact absurd (Finset.mem_range.2 hi) h
  unfold weighted
  rw [hsplit, hsplit]
  constructor
  · have e1 : ∑ j ∈ Finset.range N, angleWeight N i j * a j = 1 / 2 * a i := by
      rw [← pick a (1 / 2)]
      refine Finset.sum_congr rfl fun j hj => ?_
      have hj := Finset.mem_range.1 hj
      unfold angleWeight halfMat
      rw [(d1 i hi).1, (d1 i hi).2, (d1 j hj).2]
      simp
    have e2 : ∑ j ∈ Finset.range N, angleWeight N i (j + N) * a (j + N) = 1 / 2 * a (i + N) := by
      rw [← pick (fun j => a (j + N)) (1 / 2)]
      refine Finset.sum_congr rfl fun j hj => ?_
      have hj := Finset.mem_range.1 hj
      unfold angleWeight halfMat
      rw [(d1 i hi).1, (d1 i hi).2, (d2 j hj).2]
      simp
    rw [e1, e2]; ring
  · have e1 : ∑ j ∈ Finset.range N, angleWeight N (i + N) j * a j = 1 / 2 * a i := by
      rw [← pick a (1 / 2)]
      refine Finset.sum_congr rfl fun j hj => ?_
      have hj := Finset.mem_range.1 hj
      unfold angleWeight halfMat
      rw [(d2 i hi).1, (d2 i hi).2, (d1 j hj).2, (d1 j hj).1]
      simp
    have e2 : ∑ j ∈ Finset.range N, angleWeight N (i + N) (j + N) * a (j + N) = -(1 / 2) * a (i + N) := by
      rw [← pick (fun j => a (j + N)) (-(1 / 2))]
      refine Finset.sum_congr rfl fun j hj => ?_
      have hj := Finset.mem_range.1 hj
      unfold angleWeight halfMat
      rw [(d2 i hi).1, (d2 i hi).2, (d2 j hj).2, (d2 j hj).1]
      simp
    rw [e1, e2]; ring

theorem denoteSeq_one {o : StdOp ℝ} {f : State → State} (h : o.denote = some f) : denoteSeq [o] = some f := by
  simp only [denoteSeq, h]

theorem cxOp_denote (c t : ℕ) : (cxOp c t).denote = some (pull (cxMap c t)) := cnot_denote rfl rfl rfl

/-- The angle selected by the qubits. -/
def sel (off s : ℕ) (a : ℕ → ℝ) (x : Bits) : ℝ := a (num (off + 1) s x)

theorem sel_update (off s : ℕ) (a : ℕ → ℝ) (x : Bits) (b : Bool) : sel off s a (update x off b) = sel off s a x := by
  unfold sel; rw [num_update x b (by omega)]

/-- The CNOT left out at the end of an inner multiplexer. -/
def lastCx (off s : ℕ) (ψ : State) : State := if s = 0 then ψ else pull (cxMap (s + off) off) ψ

theorem lastCx_lastCx (off s : ℕ) (ψ : State) : lastCx off s (lastCx off s ψ) = ψ := by
  unfold lastCx
  by_cases h : s = 0
  · rw [if_pos h, if_pos h]
  · rw [if_neg h, if_neg h, cx_cx _ _ (by omega)]

theorem lastCx_mid (off s : ℕ) (ψ : State) :
    lastCx off s (pull (cxMap (s + 1 + off) off) (lastCx off s ψ)) = pull (cxMap (s + 1 + off) off) ψ := by
  unfold lastCx
  by_cases h : s = 0
  · rw [if_pos h, if_pos h]
  · rw [if_neg h, if_neg h, cx_comm (s + 1 + off) (s + off) off (by omega) (by omega), cx_cx _ _ (by omega)]

theorem sel_split (off s : ℕ) (a : ℕ → ℝ) (x : Bits) :
    sel off s (weighted (2 ^ s) a) x + (if x (s + 1 + off) = true
      then -sel off s (fun i => weighted (2 ^ s) a (i + 2 ^ s)) x
      else sel off s (fun i => weighted (2 ^ s) a (i + 2 ^ s)) x) = sel off (s + 1) a x := by
  unfold sel
  obtain ⟨h1, h2⟩ := weighted_eq s a _ (num_lt (off + 1) s x)
  beta_reduce
  rw [h1, h2, num_succ, show off + 1 + s = s + 1 + off by omega]
  cases x (s + 1 + off)
  · simp [bitv]; ring
  · simp [bitv]; ring

theorem multiplexAt_spec {ty : OpType} (hty : ty = .rz ∨ ty = .ry) (off s : ℕ) (a : ℕ → ℝ) :
    denoteSeq (multiplexAt ty off s a false) = some (fun ψ => lastCx off s (muxF ty off (sel off s a) ψ)) ∧
    denoteSeq (multiplexAt ty off s a false).reverse
      = some (fun ψ => muxF ty off (sel off s a) (lastCx off s ψ)) ∧
    denoteSeq (multiplexAt ty off s a true) = some (fun ψ => muxF ty off (sel off s a) ψ) ∧
    denoteSeq (multiplexAt ty off s a true).reverse = some (fun ψ => muxF ty off (sel off s a) ψ) := by
  induction s generalizing a with
  | zero =>
    have h : ∀ l : Bool, denoteSeq (multiplexAt ty off 0 a l) = some (fun ψ => muxF ty off (sel off 0 a) ψ) := by
      intro l
      apply denoteSeq_one
      have hM : ∀ ψ : State, muxF ty off (sel off 0 a) ψ = app1 (rotMat ty (a 0)) off ψ := fun ψ => rfl
      simp only [hM]
      rcases hty with rfl | rfl
      · rw [StdOp.denote_single_of (q := off) (M := rzMat (a 0)) rfl rfl rfl]; rfl
      · rw [StdOp.denote_single_of (q := off) (M := ryMat (a 0)) rfl rfl rfl]; rfl
    have hr : ∀ l : Bool, (multiplexAt ty off 0 a l).reverse = multiplexAt ty off 0 a l := fun l => rfl
    rw [hr, hr]
    exact ⟨h _, h _, h _, h _⟩
  | succ s ih =>
    obtain ⟨f1, r1, -, -⟩ := ih (weighted (2 ^ s) a)
    obtain ⟨f2, r2, -, -⟩ := ih (fun i => weighted (2 ^ s) a (i + 2 ^ s))
    have hcx := denoteSeq_one (cxOp_denote (s + 1 + off) off)
    have hu1 := sel_update off s (weighted (2 ^ s) a)
    have hu2 := sel_update off s (fun i => weighted (2 ^ s) a (i + 2 ^ s))
    set θ1 := sel off s (weighted (2 ^ s) a) with hθ1
    set θ2 := sel off s (fun i => weighted (2 ^ s) a (i + 2 ^ s)) with hθ2
    have hs : ∀ x, θ1 x + (if x (s + 1 + off) = true then -θ2 x else θ2 x) = sel off (s + 1) a x :=
      sel_split off s a
    -- the two orders
    have hA : ∀ ψ, pull (cxMap (s + 1 + off) off) (muxF ty off θ2 (pull (cxMap (s + 1 + off) off)
        (muxF ty off θ1 ψ))) = muxF ty off (sel off (s + 1) a) ψ := by
      intro ψ
      rw [mux_cx ty (by omega) hu2, muxF_comp ty off hu1]
      congr 1
      funext x
      rw [← hs]; ring
    have hB : ∀ ψ, muxF ty off θ1 (pull (cxMap (s + 1 + off) off) (muxF ty off θ2
        (pull (cxMap (s + 1 + off) off) ψ))) = muxF ty off (sel off (s + 1) a) ψ := by
      intro ψ
      rw [mux_cx ty (by omega) hu2, muxF_comp ty off (fun x b => by
        rw [hu2, Function.update_of_ne (by omega)])]
      congr 1
      funext x
      rw [← hs]
    have F := denoteSeq_append (denoteSeq_append f1 hcx) r2
    have Fr := denoteSeq_append (denoteSeq_append f2 hcx) r1
    have hF : ∀ ψ, muxF ty off θ2 (lastCx off s (pull (cxMap (s + 1 + off) off) (lastCx off s (muxF ty off θ1 ψ))))
        = lastCx off (s + 1) (muxF ty off (sel off (s + 1) a) ψ) := by
      intro ψ
      rw [lastCx_mid, lastCx, if_neg (by omega), ← hA, cx_cx _ _ (by omega)]
    have hFr : ∀ ψ, muxF ty off θ1 (lastCx off s (pull (cxMap (s + 1 + off) off) (lastCx off s (muxF ty off θ2 ψ))))
        = muxF ty off (sel off (s + 1) a) (lastCx off (s + 1) ψ) := by
      intro ψ
      rw [lastCx_mid, lastCx, if_neg (by omega), ← hB, cx_cx _ _ (by omega)]
    simp only [hF] at F
    simp only [hFr] at Fr
    have el : ∀ l : Bool, multiplexAt ty off (s + 1) a l = multiplexAt ty off s (weighted (2 ^ s) a) false ++
      [cxOp (s + 1 + off) off] ++ (multiplexAt ty off s (fun i => weighted (2 ^ s) a (i + 2 ^ s)) false).reverse ++
      if l then [cxOp (s + 1 + off) off] else [] := fun l => by rw [multiplexAt]
    have e0 : multiplexAt ty off (s + 1) a false = multiplexAt ty off s (weighted (2 ^ s) a) false ++
      [cxOp (s + 1 + off) off] ++ (multiplexAt ty off s (fun i => weighted (2 ^ s) a (i + 2 ^ s)) false).reverse := by
      rw [el]; simp
    have e0r : (multiplexAt ty off (s + 1) a false).reverse
        = multiplexAt ty off s (fun i => weighted (2 ^ s) a (i + 2 ^ s)) false ++
      [cxOp (s + 1 + off) off] ++ (multiplexAt ty off s (weighted (2 ^ s) a) false).reverse := by
      rw [e0]; simp
    have e1 : multiplexAt ty off (s + 1) a true = multiplexAt ty off (s + 1) a false ++ [cxOp (s + 1 + off) off] := by
      rw [el, e0]; simp
    have e1r : (multiplexAt ty off (s + 1) a true).reverse
        = [cxOp (s + 1 + off) off] ++ (multiplexAt ty off (s + 1) a false).reverse := by
      rw [e1]; simp
    refine ⟨?_, ?_, ?_, ?_⟩
    · rw [e0]; exact F
    · rw [e0r]; exact Fr
    · rw [e1, e0]
      have := denoteSeq_append F hcx
      rw [this]
      congr 1
      funext ψ
      rw [lastCx, if_neg (by omega), cx_cx _ _ (by omega)]
    · rw [e1r, e0r]
      have := denoteSeq_append hcx Fr
      rw [this]
      congr 1
      funext ψ
      rw [lastCx, if_neg (by omega), cx_cx _ _ (by omega)]

/-! ### One level -/

theorem mat1_entries (a b c d : ℂ) : mat1 a b c d false false = a ∧ mat1 a b c d false true = b ∧
    mat1 a b c d true false = c ∧ mat1 a b c d true true = d := ⟨rfl, rfl, rfl, rfl⟩

theorem polar_eq (a : ℂ) : a = ‖a‖ * cis a.arg := by
  conv_lhs => rw [← Complex.norm_mul_exp_arg_mul_I a]
  rw [cis]

/-- The amplitude pair is rotated to `(remaining, 0)`. -/
theorem bloch_pair (eps : ℝ) (h0 : 0 ≤ eps) (a b : ℂ)
    (h : √(‖a‖ ^ 2 + ‖b‖ ^ 2) = 0 ∨ eps < √(‖a‖ ^ 2 + ‖b‖ ^ 2)) :
    (∑ c : Bool, rotMat .ry (-(blochAngles eps a b).2.1) false c *
      (rotMat .rz (-(blochAngles eps a b).2.2) c c * if c then b else a)) = (blochAngles eps a b).1 ∧
    (∑ c : Bool, rotMat .ry (-(blochAngles eps a b).2.1) true c *
      (rotMat .rz (-(blochAngles eps a b).2.2) c c * if c then b else a)) = 0 := by
  rcases h with h | h
  · have hs : ‖a‖ ^ 2 + ‖b‖ ^ 2 = 0 := by
      have := Real.sqrt_eq_zero'.1 h
      have := sq_nonneg ‖a‖; have := sq_nonneg ‖b‖
      linarith
    have ha : a = 0 := by
      have := sq_nonneg ‖a‖; have := sq_nonneg ‖b‖
      exact norm_eq_zero.1 (pow_eq_zero_iff (n := 2) (by norm_num) |>.1 (by linarith))
    have hb : b = 0 := by
      have := sq_nonneg ‖a‖; have := sq_nonneg ‖b‖
      exact norm_eq_zero.1 (pow_eq_zero_iff (n := 2) (by norm_num) |>.1 (by linarith))
    subst ha hb
    simp [blochAngles, not_lt.2 h0]
  · have hR : 0 < √(‖a‖ ^ 2 + ‖b‖ ^ 2) := lt_of_le_of_lt h0 h
    have hRs := Real.sq_sqrt (show 0 ≤ ‖a‖ ^ 2 + ‖b‖ ^ 2 by positivity)
    simp only [blochAngles]
    rw [if_pos h]
    generalize √(‖a‖ ^ 2 + ‖b‖ ^ 2) = R at *
    have hna := norm_nonneg a
    have hnb := norm_nonneg b
    have hle : ‖a‖ ≤ R := abs_le_of_sq_le_sq' (by nlinarith) hR.le |>.2
    have hcos : Real.cos (-(2 * Real.arccos (‖a‖ / R)) / 2) = ‖a‖ / R := by
      rw [show -(2 * Real.arccos (‖a‖ / R)) / 2 = -Real.arccos (‖a‖ / R) by ring, Real.cos_neg,
        Real.cos_arccos (by have : 0 ≤ ‖a‖ / R := by positivity
                            linarith) ((div_le_one hR).2 hle)]
    have hsin : Real.sin (-(2 * Real.arccos (‖a‖ / R)) / 2) = -(‖b‖ / R) := by
      rw [show -(2 * Real.arccos (‖a‖ / R)) / 2 = -Real.arccos (‖a‖ / R) by ring, Real.sin_neg,
        Real.sin_arccos]
      congr 1
      rw [show 1 - (‖a‖ / R) ^ 2 = (‖b‖ / R) ^ 2 by field_simp; linarith]
      exact Real.sqrt_sq (by positivity)
    have ea := polar_eq a
    have eb := polar_eq b
    have hz : ∀ t : ℝ, rzMat t = mat1 (cis (-(t / 2))) 0 0 (cis (t / 2)) := by
      intro t; unfold rzMat; rw [← cis_eq, ← cis_eq, Real.cos_neg, Real.sin_neg]
    have hy : ryMat (-(2 * Real.arccos (‖a‖ / R))) = mat1 (↑(‖a‖ / R)) (↑(‖b‖ / R)) (↑(-(‖b‖ / R))) (↑(‖a‖ / R)) := by
      unfold ryMat
      rw [hcos, hsin, neg_neg]
      rfl
    have pa : cis (-(-(b.arg - a.arg) / 2)) * a = ‖a‖ * cis ((a.arg + b.arg) / 2) := by
      rw [show (a.arg + b.arg) / 2 = -(-(b.arg - a.arg) / 2) + a.arg by ring, cis_add]
      linear_combination cis (-(-(b.arg - a.arg) / 2)) * ea
    have pb : cis (-(b.arg - a.arg) / 2) * b = ‖b‖ * cis ((a.arg + b.arg) / 2) := by
      rw [show (a.arg + b.arg) / 2 = -(b.arg - a.arg) / 2 + b.arg by ring, cis_add]
      linear_combination cis (-(b.arg - a.arg) / 2) * eb
    have hRc : (R : ℂ) ≠ 0 := by exact_mod_cast hR.ne'
    have hRsc : (R : ℂ) ^ 2 = ‖a‖ ^ 2 + ‖b‖ ^ 2 := by exact_mod_cast hRs
    simp only [rotMat, if_true, reduceCtorEq, if_false, hy, hz, Fintype.sum_bool, Bool.false_eq_true,
      (mat1_entries _ _ _ _).1, (mat1_entries _ _ _ _).2.1, (mat1_entries _ _ _ _).2.2.1,
      (mat1_entries _ _ _ _).2.2.2, pa, pb]
    push_cast
    generalize cis ((a.arg + b.arg) / 2) = C
    generalize (‖a‖ : ℂ) = α at *
    generalize (‖b‖ : ℂ) = β at *
    constructor
    · field_simp
      rw [hRsc]; ring
    · field_simp
      ring

/-- Amplitudes `A` on the qubits from `i` on, the earlier qubits being zero. -/
def ampS (i r : ℕ) (A : ℕ → ℂ) : State := fun x => if ∀ q < i, x q = false then A (num i r x) else 0

theorem twoNormR_zero {len : ℕ} {v : ℕ → ℝ} (h : twoNormR len v = 0) : ∀ j < len, v j = 0 := by
  intro j hj
  have h2 := Real.sqrt_eq_zero'.1 h
  have h3 : ∑ i ∈ Finset.range len, v i ^ 2 = 0 :=
    le_antisymm h2 (Finset.sum_nonneg fun i _ => sq_nonneg _)
  have := (Finset.sum_eq_zero_iff_of_nonneg fun i _ => sq_nonneg (v i)).1 h3 j (Finset.mem_range.2 hj)
  exact pow_eq_zero_iff (n := 2) (by norm_num) |>.1 this

theorem muxF_zero (ty : OpType) (off s : ℕ) {a : ℕ → ℝ} (h : ∀ j < 2 ^ s, a j = 0) (ψ : State) :
    muxF ty off (sel off s a) ψ = ψ := by
  funext x
  unfold muxF
  rw [sel, h _ (num_lt _ _ _)]
  simp only [rot_zero]
  rw [Finset.sum_eq_single (x off)]
  · simp
  · intro b _ hb; rw [if_neg (Ne.symm hb), zero_mul]
  · intro h'; exact absurd (Finset.mem_univ _) h'

theorem leaves_asOperation (l : List (StdOp ℝ)) : (asOperation l).leaves = l := by
  have e : ∀ l : List (StdOp ℝ), UOp.leavesL (l.map UOp.std) = l := by
    intro l
    unfold UOp.leavesL
    rw [List.flatMap_map]
    simp
  unfold asOperation
  split
  · simp
  · rw [UOp.leaves_compound, e]

/-- Each comparison with the tolerance is clear-cut. -/
def Clear (eps r : ℝ) : Prop := r = 0 ∨ eps < r

theorem disentangle_spec (eps : ℝ) (s i : ℕ) (A : ℕ → ℂ)
    (hp : Clear eps (twoNormR (2 ^ s) (phis eps A))) (ht : Clear eps (twoNormR (2 ^ s) (thetas eps A))) :
    denoteSeq (UOp.leavesL (disentangle eps s i A)) = some fun ψ =>
      muxF .ry i (sel i s (thetas eps A)) (muxF .rz i (sel i s (phis eps A)) ψ) := by
  obtain ⟨zf, -, zt, -⟩ := multiplexAt_spec (ty := .rz) (Or.inl rfl) i s (phis eps A)
  obtain ⟨-, yr, -, yt⟩ := multiplexAt_spec (ty := .ry) (Or.inr rfl) i s (thetas eps A)
  unfold disentangle
  simp only [UOp.leavesL, List.flatMap_append]
  have z0 : ∀ {v : ℝ}, Clear eps v → ¬ v > eps → v = 0 := fun h h' => h.resolve_right h'
  by_cases h1 : twoNormR (2 ^ s) (phis eps A) > eps <;> by_cases h2 : twoNormR (2 ^ s) (thetas eps A) > eps
  · rw [if_pos h1, if_pos h2]
    simp only [h1, h2, List.flatMap_cons, List.flatMap_nil, List.append_nil, leaves_asOperation,
      List.map_reverse, multiplex_shift, and_self, decide_true, Bool.not_true]
    rw [denoteSeq_append zf yr]
    simp only [lastCx_lastCx]
  · rw [if_pos h1, if_neg h2]
    simp only [h2, List.flatMap_cons, List.flatMap_nil, List.append_nil, leaves_asOperation,
      multiplex_shift, and_false, decide_false, Bool.not_false]
    rw [zt]
    simp only [muxF_zero .ry i s (twoNormR_zero (z0 ht h2))]
  · rw [if_neg h1, if_pos h2]
    simp only [h1, List.flatMap_cons, List.flatMap_nil, List.append_nil, List.nil_append, leaves_asOperation,
      List.map_reverse, multiplex_shift, false_and, decide_false, Bool.not_false]
    rw [yt]
    simp only [muxF_zero .rz i s (twoNormR_zero (z0 hp h1))]
  · rw [if_neg h1, if_neg h2]
    simp only [List.flatMap_nil, List.append_nil]
    simp only [muxF_zero .ry i s (twoNormR_zero (z0 ht h2)), muxF_zero .rz i s (twoNormR_zero (z0 hp h1))]
    rfl

theorem rz_diag (t : ℝ) {i j : Bool} (h : i ≠ j) : rotMat .rz t i j = 0 := by
  unfold rotMat rzMat
  rw [if_pos rfl]
  cases i <;> cases j <;> first | rfl | exact absurd rfl h

theorem level_spec (eps : ℝ) (s i : ℕ) (A : ℕ → ℂ) (h0 : 0 ≤ eps)
    (hR : ∀ j < 2 ^ s, Clear eps (√(‖A (2 * j)‖ ^ 2 + ‖A (2 * j + 1)‖ ^ 2))) :
    muxF .ry i (sel i s (thetas eps A)) (muxF .rz i (sel i s (phis eps A)) (ampS i (s + 1) A))
      = ampS (i + 1) s (remaining eps A) := by
  funext x
  have hz : ∀ b, muxF .rz i (sel i s (phis eps A)) (ampS i (s + 1) A) (update x i b)
      = rotMat .rz (phis eps A (num (i + 1) s x)) b b * ampS i (s + 1) A (update x i b) := by
    intro b
    rw [muxF]
    simp only [Function.update_self, Function.update_idem, sel_update]
    rw [Finset.sum_eq_single b]
    · rfl
    · intro c _ hc; rw [rz_diag _ (Ne.symm hc), zero_mul]
    · intro h'; exact absurd (Finset.mem_univ _) h'
  rw [muxF]
  simp only [hz]
  have hx : ∀ b, (∀ q < i, update x i b q = false) ↔ ∀ q < i, x q = false := by
    intro b
    exact forall₂_congr fun q hq => by rw [Function.update_of_ne (by omega)]
  by_cases hlow : ∀ q < i, x q = false
  · have hA : ∀ b, ampS i (s + 1) A (update x i b)
        = if b then A (2 * num (i + 1) s x + 1) else A (2 * num (i + 1) s x) := by
      intro b
      rw [ampS, if_pos ((hx b).2 hlow), num_succ', num_update x b (by omega), Function.update_self]
      cases b
      · simp [bitv]
      · simp [bitv, add_comm]
    simp only [hA]
    obtain ⟨p1, p2⟩ := bloch_pair eps h0 _ _ (hR _ (num_lt (i + 1) s x))
    have hs : sel i s (thetas eps A) x = -(blochAngles eps (A (2 * num (i + 1) s x)) (A (2 * num (i + 1) s x + 1))).2.1 :=
      rfl
    have hp : phis eps A (num (i + 1) s x)
        = -(blochAngles eps (A (2 * num (i + 1) s x)) (A (2 * num (i + 1) s x + 1))).2.2 := rfl
    rw [hs, hp]
    cases hxi : x i
    · rw [p1, ampS, if_pos]
      · rfl
      · intro q hq
        rcases Nat.lt_succ_iff_lt_or_eq.1 hq with h | rfl
        · exact hlow q h
        · exact hxi
    · rw [p2, ampS, if_neg]
      intro h
      rw [h i (Nat.lt_succ_self i)] at hxi
      exact absurd hxi (by decide)
  · have hA : ∀ b, ampS i (s + 1) A (update x i b) = 0 := fun b => by
      rw [ampS, if_neg fun h => hlow ((hx b).1 h)]
    simp only [hA, mul_zero, Finset.sum_const_zero]
    rw [ampS, if_neg fun h => hlow fun q hq => h q (by omega)]

/-- All comparisons with the tolerance made while disentangling `2^r` amplitudes are clear-cut. -/
def ClearAll (eps : ℝ) : ℕ → (ℕ → ℂ) → Prop
  | 0, A => Clear eps |(A 0).arg|
  | s + 1, A => (∀ j < 2 ^ s, Clear eps (√(‖A (2 * j)‖ ^ 2 + ‖A (2 * j + 1)‖ ^ 2))) ∧
    Clear eps (twoNormR (2 ^ s) (phis eps A)) ∧ Clear eps (twoNormR (2 ^ s) (thetas eps A)) ∧
    ClearAll eps s (remaining eps A)

theorem ClearAll.last {eps : ℝ} {r : ℕ} {A : ℕ → ℂ} (h : ClearAll eps r A) (i : ℕ) :
    ClearAll eps 0 (uncompute eps r i A).2 := by
  induction r generalizing i A with
  | zero => exact h
  | succ s ih => exact ih h.2.2.2 (i + 1)

/-- Comparisons with a small enough tolerance are clear-cut. -/
theorem Clear.eventually {r : ℝ} (h : 0 ≤ r) : ∃ e0 > 0, ∀ eps, eps < e0 → Clear eps r := by
  rcases h.eq_or_lt with h | h
  · exact ⟨1, one_pos, fun _ _ => Or.inl h.symm⟩
  · exact ⟨r, h, fun _ he => Or.inr he⟩

theorem clear_range {len : ℕ} {v : ℕ → ℝ} (h : ∀ j, 0 ≤ v j) :
    ∃ e0 > 0, ∀ eps, eps < e0 → ∀ j < len, Clear eps (v j) := by
  induction len with
  | zero => exact ⟨1, one_pos, fun _ _ j hj => by omega⟩
  | succ n ih =>
    obtain ⟨e1, h1, h1'⟩ := ih
    obtain ⟨e2, h2, h2'⟩ := Clear.eventually (h n)
    refine ⟨min e1 e2, lt_min h1 h2, fun eps he j hj => ?_⟩
    rcases Nat.lt_succ_iff_lt_or_eq.1 hj with hj | rfl
    · exact h1' eps (lt_of_lt_of_le he (min_le_left _ _)) j hj
    · exact h2' eps (lt_of_lt_of_le he (min_le_right _ _))

/-- Only the first `2^(s+1)` amplitudes matter. -/
theorem twoNormR_congr {len : ℕ} {u v : ℕ → ℝ} (h : ∀ j < len, u j = v j) : twoNormR len u = twoNormR len v := by
  unfold twoNormR
  rw [Finset.sum_congr rfl fun i hi => by rw [h i (Finset.mem_range.1 hi)]]

theorem ClearAll.congr {eps : ℝ} {r : ℕ} {A B : ℕ → ℂ} (h : ∀ j < 2 ^ r, A j = B j) (hA : ClearAll eps r A) :
    ClearAll eps r B := by
  induction r generalizing A B with
  | zero => rw [ClearAll, ← h 0 (by norm_num)]; exact hA
  | succ s ih =>
    obtain ⟨h1, h2, h3, h4⟩ := hA
    have e : ∀ j < 2 ^ s, A (2 * j) = B (2 * j) ∧ A (2 * j + 1) = B (2 * j + 1) := fun j hj =>
      ⟨h _ (by rw [pow_succ]; omega), h _ (by rw [pow_succ]; omega)⟩
    refine ⟨fun j hj => ?_, ?_, ?_, ih (fun j hj => ?_) h4⟩
    · rw [← (e j hj).1, ← (e j hj).2]; exact h1 j hj
    · rwa [twoNormR_congr (v := phis eps A) fun j hj => by unfold phis; rw [(e j hj).1, (e j hj).2]]
    · rwa [twoNormR_congr (v := thetas eps A) fun j hj => by unfold thetas; rw [(e j hj).1, (e j hj).2]]
    · unfold remaining; rw [(e j hj).1, (e j hj).2]

theorem bloch_clear {eps : ℝ} (h0 : 0 ≤ eps) {a b : ℂ} (h : Clear eps (√(‖a‖ ^ 2 + ‖b‖ ^ 2))) :
    blochAngles eps a b = blochAngles 0 a b := by
  unfold blochAngles
  simp only
  rcases h with h | h
  · rw [h, if_neg (not_lt.2 h0), if_neg (lt_irrefl _)]
  · rw [if_pos h, if_pos (lt_of_le_of_lt h0 h)]

/-- A small enough tolerance makes all comparisons clear-cut. -/
theorem ClearAll.eventually (r : ℕ) (A : ℕ → ℂ) :
    ∃ e0 > 0, ∀ eps, 0 ≤ eps → eps < e0 → ClearAll eps r A := by
  induction r generalizing A with
  | zero =>
    obtain ⟨e, h, h'⟩ := Clear.eventually (abs_nonneg (A 0).arg)
    exact ⟨e, h, fun eps _ he => h' eps he⟩
  | succ s ih =>
    obtain ⟨e1, h1, h1'⟩ := clear_range (len := 2 ^ s)
      (v := fun j => √(‖A (2 * j)‖ ^ 2 + ‖A (2 * j + 1)‖ ^ 2)) fun j => Real.sqrt_nonneg _
    obtain ⟨e2, h2, h2'⟩ := Clear.eventually (show 0 ≤ twoNormR (2 ^ s) (phis 0 A) from Real.sqrt_nonneg _)
    obtain ⟨e3, h3, h3'⟩ := Clear.eventually (show 0 ≤ twoNormR (2 ^ s) (thetas 0 A) from Real.sqrt_nonneg _)
    obtain ⟨e4, h4, h4'⟩ := ih (remaining 0 A)
    refine ⟨min (min e1 e2) (min e3 e4), by positivity, fun eps he he' => ?_⟩
    have hc := h1' eps (lt_of_lt_of_le he' ((min_le_left _ _).trans (min_le_left _ _)))
    have hb := fun j hj => bloch_clear he (hc j hj)
    refine ⟨hc, ?_, ?_, ClearAll.congr (A := remaining 0 A) (fun j hj => ?_)
      (h4' eps he (lt_of_lt_of_le he' ((min_le_right _ _).trans (min_le_right _ _))))⟩
    · rw [twoNormR_congr (v := phis 0 A) fun j hj => by unfold phis; rw [hb j hj]]
      exact h2' eps (lt_of_lt_of_le he' ((min_le_left _ _).trans (min_le_right _ _)))
    · rw [twoNormR_congr (v := thetas 0 A) fun j hj => by unfold thetas; rw [hb j hj]]
      exact h3' eps (lt_of_lt_of_le he' ((min_le_right _ _).trans (min_le_left _ _)))
    · unfold remaining; rw [hb j hj]

theorem uncompute_spec (eps : ℝ) (h0 : 0 ≤ eps) (r i : ℕ) (A : ℕ → ℂ) (h : ClearAll eps r A) :
    ∃ f, denoteSeq (UOp.leavesL (uncompute eps r i A).1) = some f ∧
      f (ampS i r A) = ampS (i + r) 0 (uncompute eps r i A).2 := by
  induction r generalizing i A with
  | zero => exact ⟨fun ψ => ψ, rfl, rfl⟩
  | succ s ih =>
    obtain ⟨hR, hp, ht, hr⟩ := h
    obtain ⟨f, hf, hfv⟩ := ih (i + 1) _ hr
    have h1 := disentangle_spec eps s i A hp ht
    have e : UOp.leavesL (uncompute eps (s + 1) i A).1 = UOp.leavesL (disentangle eps s i A) ++
        UOp.leavesL (uncompute eps s (i + 1) (remaining eps A)).1 := by
      simp only [uncompute, UOp.leavesL, List.flatMap_append]
    refine ⟨_, by rw [e]; exact denoteSeq_append h1 hf, ?_⟩
    rw [level_spec eps s i A h0 hR, hfv, show i + 1 + s = i + (s + 1) by omega]
    rfl

/-! ### The whole circuit -/

theorem norm_cis (t : ℝ) : ‖cis t‖ = 1 := by
  rw [cis, Complex.norm_exp_ofReal_mul_I]

theorem remaining_norm (eps : ℝ) (A : ℕ → ℂ) (j : ℕ) :
    ‖remaining eps A j‖ ^ 2 = ‖A (2 * j)‖ ^ 2 + ‖A (2 * j + 1)‖ ^ 2 := by
  have hn : 0 ≤ ‖A (2 * j)‖ ^ 2 + ‖A (2 * j + 1)‖ ^ 2 := by positivity
  unfold remaining blochAngles
  simp only
  split_ifs
  · rw [norm_mul, norm_cis, mul_one, Complex.norm_real, Real.norm_eq_abs, sq_abs, Real.sq_sqrt hn]
  · rw [norm_mul, norm_cis, mul_one, Complex.norm_real, Real.norm_eq_abs, sq_abs, Real.sq_sqrt hn]

theorem sum_pairs (f : ℕ → ℝ) (n : ℕ) :
    ∑ j ∈ Finset.range (2 * n), f j = ∑ j ∈ Finset.range n, (f (2 * j) + f (2 * j + 1)) := by
  induction n with
  | zero => rfl
  | succ n ih => rw [show 2 * (n + 1) = 2 * n + 1 + 1 by ring, Finset.sum_range_succ, Finset.sum_range_succ, ih,
      Finset.sum_range_succ, add_assoc]

theorem uncompute_norm (eps : ℝ) (r i : ℕ) (A : ℕ → ℂ) :
    ‖(uncompute eps r i A).2 0‖ ^ 2 = ∑ j ∈ Finset.range (2 ^ r), ‖A j‖ ^ 2 := by
  induction r generalizing i A with
  | zero => simp [uncompute]
  | succ s ih =>
    rw [uncompute]
    simp only
    rw [ih, pow_succ, mul_comm, sum_pairs (fun j => ‖A j‖ ^ 2)]
    exact Finset.sum_congr rfl fun j _ => remaining_norm eps A j

/-- The operations occurring in multiplexers. -/
def Simple (ty : OpType) (off : ℕ) (o : StdOp ℝ) : Prop :=
  (∃ θ : ℝ, o = { type := ty, params := [θ], targets := [off] }) ∨ ∃ c, off < c ∧ o = cxOp c off

theorem mem_multiplexAt (ty : OpType) (off s : ℕ) (a : ℕ → ℝ) (l : Bool) :
    ∀ o ∈ multiplexAt ty off s a l, Simple ty off o := by
  induction s generalizing a l with
  | zero =>
    intro o ho
    rw [multiplexAt, List.mem_singleton] at ho
    exact Or.inl ⟨_, ho⟩
  | succ s ih =>
    intro o ho
    have hc : o = cxOp (s + 1 + off) off → Simple ty off o := fun h => Or.inr ⟨_, by omega, h⟩
    rw [multiplexAt] at ho
    simp only [List.mem_append, List.mem_singleton, List.mem_reverse] at ho
    rcases ho with ((h | h) | h) | h
    · exact ih _ _ o h
    · exact hc h
    · exact ih _ _ o h
    · cases l
      · exact absurd h (by simp)
      · simp only [if_true, List.mem_singleton] at h
        exact hc h

theorem Simple.wf {ty : OpType} {off : ℕ} {o : StdOp ℝ} (h : Simple ty off o) : o.WF := by
  rcases h with ⟨θ, rfl⟩ | ⟨c, hc, rfl⟩
  · exact ⟨by simp, by simp [ctrlQubits]⟩
  · refine ⟨by simp [cxOp], ?_⟩
    simp [cxOp, ctrlQubits]
    omega

theorem Simple.inv {ty : OpType} (hty : ty = .rz ∨ ty = .ry) {off : ℕ} {o : StdOp ℝ} (h : Simple ty off o) :
    ∃ o', o.invert = some o' := by
  rcases h with ⟨θ, rfl⟩ | ⟨c, hc, rfl⟩
  · rcases hty with rfl | rfl <;> exact ⟨_, rfl⟩
  · exact ⟨_, rfl⟩

theorem mapM_isSome {α β : Type} {f : α → Option β} {l : List α} (h : ∀ a ∈ l, ∃ b, f a = some b) :
    ∃ r, l.mapM f = some r := by
  induction l with
  | nil => exact ⟨[], rfl⟩
  | cons a l ih =>
    obtain ⟨b, hb⟩ := h a (by simp)
    obtain ⟨r, hr⟩ := ih fun a ha => h a (List.mem_cons_of_mem _ ha)
    exact ⟨b :: r, by simp [List.mapM_cons, hb, hr]⟩

theorem asOperation_inv {l : List (StdOp ℝ)} (h : ∀ o ∈ l, ∃ o', o.invert = some o') :
    ∃ u, (asOperation l).invert = some u := by
  unfold asOperation
  split
  · rename_i o
    obtain ⟨o', ho'⟩ := h o (by simp)
    exact ⟨.std o', by rw [UOp.invert, ho']; rfl⟩
  · obtain ⟨r, hr⟩ := mapM_isSome (f := UOp.invert) (l := l.map UOp.std) (by
      intro a ha
      obtain ⟨o, ho, rfl⟩ := List.mem_map.1 ha
      obtain ⟨o', ho'⟩ := h o ho
      exact ⟨.std o', by rw [UOp.invert, ho']; rfl⟩)
    exact ⟨_, by rw [UOp.invert_compound, UOp.invertL, hr]; rfl⟩

theorem mem_uncompute (eps : ℝ) (r i : ℕ) (A : ℕ → ℂ) : ∀ u ∈ (uncompute eps r i A).1,
    ∃ ty off l, (ty = .rz ∨ ty = .ry) ∧ (∀ o ∈ l, Simple ty off o) ∧ u = asOperation l := by
  induction r generalizing i A with
  | zero => intro u hu; exact absurd hu (by simp [uncompute])
  | succ s ih =>
    intro u hu
    simp only [uncompute, List.mem_append] at hu
    rcases hu with hu | hu
    · simp only [disentangle, List.mem_append] at hu
      rcases hu with hu | hu
      · split_ifs at hu
        · rw [List.mem_singleton] at hu
          exact ⟨.rz, i, _, Or.inl rfl, by rw [multiplex_shift]; exact mem_multiplexAt _ _ _ _ _, hu⟩
        · exact absurd hu (by simp)
      · split_ifs at hu
        · rw [List.mem_singleton] at hu
          refine ⟨.ry, i, _, Or.inr rfl, ?_, hu⟩
          rw [List.map_reverse, multiplex_shift]
          intro o ho
          exact mem_multiplexAt _ _ _ _ _ o (List.mem_reverse.1 ho)
        · exact absurd hu (by simp)
    · exact ih _ _ u hu

theorem uncompute_inv (eps : ℝ) (r i : ℕ) (A : ℕ → ℂ) : ∃ l, UOp.invertL (uncompute eps r i A).1 = some l := by
  obtain ⟨l, hl⟩ := mapM_isSome (f := UOp.invert) (l := (uncompute eps r i A).1) (by
    intro u hu
    obtain ⟨ty, off, l, hty, hl, rfl⟩ := mem_uncompute eps r i A u hu
    exact asOperation_inv fun o ho => (hl o ho).inv hty)
  exact ⟨_, by rw [UOp.invertL, hl]; rfl⟩

theorem uncompute_wf (eps : ℝ) (r i : ℕ) (A : ℕ → ℂ) : ∀ u ∈ (uncompute eps r i A).1, u.WF := by
  intro u hu
  obtain ⟨ty, off, l, hty, hl, rfl⟩ := mem_uncompute eps r i A u hu
  intro o ho
  rw [leaves_asOperation] at ho
  exact (hl o ho).wf

theorem gphase_arg (θ : ℝ) (h1 : -Real.pi < θ) (h2 : θ ≤ Real.pi) : cis (gphaseStep 1 0 θ) = cis θ := by
  have hp := Real.pi_pos
  unfold gphaseStep
  rw [zero_add]
  obtain ⟨a0, a1, a2, k, hk⟩ := addLoop_spec 1 θ (by push_cast; linarith)
  obtain ⟨-, -, m, hm⟩ := subLoop_spec 1 (addLoop 1 θ) a0 (by
    push_cast
    by_cases h : θ < 0
    · linarith [a1 h]
    · rw [a2 (not_lt.1 h)]; linarith)
  rw [hm, hk, show θ + k * (2 * Real.pi) - m * (2 * Real.pi) = θ + ((k - m : ℤ) : ℝ) * (2 * Real.pi) by
    push_cast; ring, cis_add, cis_int, mul_one]

theorem permOf_id (n : ℕ) : permOf ((List.range n).map fun q => (q, q)) = id := by
  funext q
  unfold permOf
  have : ∀ l : List ℕ, ((l.map fun q => (q, q)).lookup q).getD q = q := by
    intro l
    induction l with
    | nil => rfl
    | cons a l ih =>
      rw [List.map_cons, List.lookup_cons]
      by_cases h : q = a
      · rw [h, beq_self_eq_true]; rfl
      · rw [beq_eq_false_iff_ne.2 h]; exact ih
  exact this _

theorem invFun_id' : Function.invFun (id : ℕ → ℕ) = id := by
  funext q
  exact Function.invFun_eq (f := (id : ℕ → ℕ)) ⟨q, rfl⟩

/-- The inverted circuit prepares the (normalised) amplitudes. -/
theorem prepare_spec (eps : ℝ) (h0 : 0 ≤ eps) (n : ℕ) (A : ℕ → ℂ) (h : ClearAll eps n A)
    (hne : ∑ j ∈ Finset.range (2 ^ n), ‖A j‖ ^ 2 ≠ 0) :
    ∃ c F, (gatesToUncompute eps n A).invert = some c ∧ c.denote = some F ∧
      F (ket0 n) = fun x => A (num 0 n x) / (√(∑ j ∈ Finset.range (2 ^ n), ‖A j‖ ^ 2) : ℝ) := by
  have hz := h.last 0
  obtain ⟨l, hl⟩ := uncompute_inv eps n 0 A
  obtain ⟨f, hf, hfA⟩ := uncompute_spec eps h0 n 0 A h
  have hf' := (UOp.denoteL_leaves _ f).2 hf
  obtain ⟨g, hg, hgf, hfg⟩ := UOp.invertL_undo _ l f (uncompute_wf eps n 0 A) hl hf'
  have hnorm := uncompute_norm eps n 0 A
  set z := (uncompute eps n 0 A).2 0 with hzdef
  have hz0 : z ≠ 0 := by
    intro h'; rw [h'] at hnorm; apply hne; rw [← hnorm]; simp
  have hfA' : f (ampS 0 n A) = fun x => z * ket0 n x := by
    rw [hfA]
    funext x
    rw [ampS, ket0]
    simp only [Nat.zero_add]
    split_ifs
    · rw [mul_one]; rfl
    · rw [mul_zero]
  have hgl := UOp.denoteL_linear hg
  have hA : ampS 0 n A = fun x => z * g (ket0 n) x := by
    rw [← hgl.smul, ← hfA', hgf]
  let c0 := gatesToUncompute eps n A
  have hinv : c0.invert = some { c0 with ops := l } := by
    show QC.invert (gatesToUncompute eps n A) = _
    unfold QC.invert
    show (UOp.invertL (uncompute eps n 0 A).1).map _ = _
    rw [hl]
    simp only [Option.map_some]
    rw [if_pos (show c0.init.length = c0.out.length from rfl)]
    rfl
  refine ⟨_, fun ψ y => (⟨Real.cos c0.gphase, Real.sin c0.gphase⟩ : ℂ) * g ψ y, hinv, ?_, ?_⟩
  · unfold QC.denote
    simp only [hg, Option.map_some]
    have hi : c0.init = (List.range n).map fun q => (q, q) := rfl
    have ho : c0.out = (List.range n).map fun q => (q, q) := rfl
    rw [hi, ho, permOf_id, invFun_id']
    rfl
  · funext x
    have hx := congrFun hA x
    rw [ampS, if_pos (by intro q hq; omega)] at hx
    have hph : cis c0.gphase = cis z.arg := by
      show cis (if |z.arg| > eps then gphaseStep 1 0 z.arg else 0) = _
      split_ifs with hc
      · exact gphase_arg _ (Complex.neg_pi_lt_arg z) (Complex.arg_le_pi z)
      · rcases hz with h' | h'
        · rw [abs_eq_zero.1 h']
        · exact absurd h' hc
    have hN : √(∑ j ∈ Finset.range (2 ^ n), ‖A j‖ ^ 2) = ‖z‖ := by
      rw [← hnorm]; exact Real.sqrt_sq (norm_nonneg _)
    have hnz : (‖z‖ : ℂ) ≠ 0 := by exact_mod_cast norm_ne_zero_iff.2 hz0
    have hp := polar_eq z
    rw [hN, hx, cis_eq, hph, eq_div_iff hnz]
    linear_combination -(g (ket0 n) x) * hp

end MQT.Alg
