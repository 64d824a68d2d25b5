/-
Property theorems C33, C35-C38, C66, C67: node creation and arithmetic on decision
diagrams.  The specifications are entrywise: `Edge.vec`, `Edge.mat` give amplitudes
and matrix entries, sums run over all bit strings of length `n`.
-/
import Verif.DD.Conj
import Verif.DD.Canonical
import Mathlib.Tactic.NormNum.RealSqrt

set_option autoImplicit false

noncomputable section

open Classical
open Complex (normSq)
open scoped ComplexConjugate

namespace MQT.DD

open MQT.IR (Bits State)

/-! ### C33 -/

/-- **C33.** A new vector node represents the vector with the given halves, for every
pair of child edges. -/
theorem c33_vector (v : ℕ) (e : Bool → VEdge) (x : Bits) :
    (makeV v e).vec x = (e (x v)).vec x := makeV_vec v e x

/-- **C33.** The weights of a new vector node have unit 2-norm and the larger one
(the first if both are equal) is a positive real number. -/
theorem c33_vector_normalised (v : ℕ) (e : Bool → VEdge) {v' : ℕ} {w : Bool → ℂ} {c : Bool → VNode}
    (h : (makeV v e).p = .node v' w c) :
    v' = v ∧ normSq (w false) + normSq (w true) = 1 ∧
      ∃ m, (∀ b, normSq (w b) ≤ normSq (w m)) ∧ (w m).im = 0 ∧ 0 < (w m).re := by
  unfold makeV at h
  rw [vNormalize_eq] at h
  split_ifs at h with h0
  · cases h
  · simp only [Node.node.injEq] at h
    obtain ⟨rfl, rfl, rfl⟩ := h
    have ht : vtop (fun b => (e b).w / vtop (fun b => (e b).w)) = 1 := by
      have : (fun b => (e b).w / vtop (fun b => (e b).w))
          = fun b => (vtop (fun b => (e b).w))⁻¹ * (e b).w := by
        funext b; rw [div_eq_mul_inv, mul_comm]
      rw [this, vtop_smul, inv_mul_cancel₀ h0]
    refine ⟨rfl, ?_, _, varg_max _, ?_, ?_⟩
    · have h1 := vtop_normSq (fun b => (e b).w / vtop (fun b => (e b).w))
      rw [ht, map_one] at h1
      exact h1.symm
    · have h1 := congrArg Complex.im (vtop_one_max ht).1
      rw [Complex.ofReal_im] at h1
      exact h1
    · have h1 := congrArg Complex.re (vtop_one_max ht).1
      rw [Complex.ofReal_re] at h1
      exact h1.symm ▸ (vtop_one_max ht).2

/-- **C33.** A common factor of the child weights ends up in the weight of the new
edge; the node is the same. -/
theorem c33_vector_factor (v : ℕ) (e : Bool → VEdge) {z : ℂ} (hz : z ≠ 0) :
    makeV v (fun b => ⟨(e b).p, z * (e b).w⟩) = ⟨(makeV v e).p, z * (makeV v e).w⟩ := by
  unfold makeV
  rw [vNormalize_eq, vNormalize_eq]
  simp only [vtop_smul, mul_eq_zero, hz, false_or]
  split_ifs with h0
  · simp [Edge.zero]
  · ext
    · simp only [Node.node.injEq, true_and]
      refine ⟨?_, trivial⟩
      funext b
      rw [mul_div_mul_left _ _ hz]
    · rfl

/-- **C33.** The variant of the normalisation for looked-up weights gives the same
node on all edges whose zero weights point to the terminal. -/
theorem c33_vector_variants (v : ℕ) (e : Bool → VEdge) (h : ∀ b, (e b).w = 0 → (e b).p = .term) :
    makeVE v e = makeV v e := vNormalizeE_eq v e h

/-- **C33.** A new matrix node (or what is returned if it is skipped because it is
an identity) represents the matrix with the given blocks, for every four child edges
of the form the package builds. -/
theorem c33_matrix {n : ℕ} {e : RC → MEdge} (h : ∀ b, MOk n (e b)) (x y : Bits) :
    (makeM n e).mat (n + 1) x y = (e (x n, y n)).mat n x y := makeM_mat h x y

/-- **C33.** The weights of a new matrix node have modulus at most one, one of them is
one, and the node is not an identity. -/
theorem c33_matrix_normalised {n : ℕ} {e : RC → MEdge} (h : ∀ b, MOk n (e b)) {w : RC → ℂ}
    {c : RC → MNode} (hp : (makeM n e).p = .node n w c) (h0 : (makeM n e).w ≠ 0) :
    (∃ m, w m = 1) ∧ (∀ b, normSq (w b) ≤ 1) ∧
      ¬ (∀ x y, mval (n + 1) (.node n w c) x y =
          if x n = y n then mval n (c (false, false)) x y else 0) := by
  have hc := (makeM_can h).2 h0
  rw [hp] at hc
  obtain ⟨h1, h2⟩ := mtop_one_max hc.2.1
  refine ⟨h1, h2, fun hid => ?_⟩
  -- if the node were an identity it would not be in the package's form
  have hff : w (false, false) ≠ 0 ∨ w (false, false) = 0 := (Classical.em _).symm
  have hcff : MCan n (c (false, false)) := by
    rcases hff with hne | hz
    · exact (hc.2.2.2 (false, false)).2 hne
    · rw [(hc.2.2.2 (false, false)).1 hz]; trivial
  have := mcan_inj hc (MOk.mono (Nat.le_succ n) hcff) one_ne_zero one_ne_zero (fun x y => by
    rw [one_mul, one_mul, hid, mval_skip hcff le_rfl])
  have h3 := this.1 ▸ hcff
  exact absurd h3.1 (lt_irrefl n)

example : (makeV 0 (fun b => .terminal (if b then 4 else 3))).w = 5 := by
  have h : ¬ (16 : ℝ) ≤ 9 := by norm_num
  have h5 : √(16 + 9 : ℝ) = 5 := by
    rw [show (16 + 9 : ℝ) = 5 ^ 2 by norm_num]; exact Real.sqrt_sq (by norm_num)
  have h4 : √(16 : ℝ) = 4 := by
    rw [show (16 : ℝ) = 4 ^ 2 by norm_num]; exact Real.sqrt_sq (by norm_num)
  have hn : normSq (4 : ℂ) = 16 := by simp; norm_num
  have hn' : normSq (3 : ℂ) = 9 := by simp; norm_num
  simp [makeV, vNormalize, hn, hn', h, h5, h4]
  norm_num

/-- A block-diagonal matrix with two equal blocks needs no node. -/
example : makeM 0 (fun b => if b.1 = b.2 then .terminal 3 else .zero) = .terminal 3 := by
  simp [makeM, mNormalize, marg, rcs, margStep, skipId, IdLike, Edge.terminal]

/-! ### C35 -/

/-- **C35.** Addition of vectors: always defined, entrywise sum, result again in the
package's form. -/
theorem c35_vector {n : ℕ} {x y : VEdge} (hx : VECan n x) (hy : VECan n y) :
    ∃ r, vadd x y = some r ∧ VECan n r ∧ ∀ z, r.vec z = x.vec z + y.vec z :=
  vadd_spec hx.ok hy.ok

/-- **C35.** Addition of matrices, including operands that skip different identity
levels. -/
theorem c35_matrix {n : ℕ} {x y : MEdge} (hx : MECan n x) (hy : MECan n y) :
    ∃ r, madd x y = some r ∧ MECan n r ∧ ∀ a b, r.mat n a b = x.mat n a b + y.mat n a b :=
  madd_spec hx.ok hy.ok

/-- **C35.** As decision diagrams: addition is commutative. -/
theorem c35_comm {n : ℕ} {x y : MEdge} (hx : MECan n x) (hy : MECan n y) :
    madd x y = madd y x := by
  obtain ⟨r, h1, h2, h3⟩ := c35_matrix hx hy
  obtain ⟨r', h1', h2', h3'⟩ := c35_matrix hy hx
  rw [h1, h1', mecan_inj h2 h2' (fun a b => by rw [h3, h3', add_comm])]

/-- Qubit 0 in state `|1⟩` as a DD. -/
def ketOne : VEdge := makeV 0 (fun b => if b then .one else .zero)

theorem ketOne_can : VECan 1 ketOne :=
  makeV_can (fun b => by cases b <;> exact fun h => by first | exact absurd rfl h | rfl)

/-- The Pauli X matrix on qubit `q` as a DD. -/
def xGate (q : ℕ) : MEdge := makeM q (fun b => if b.1 = b.2 then .zero else .one)

theorem xGate_can (q : ℕ) : MECan (q + 1) (xGate q) :=
  makeM_can (fun b => by
    obtain ⟨b1, b2⟩ := b
    cases b1 <;> cases b2 <;> exact fun h => by first | exact absurd rfl h | exact trivial)

theorem xGate_mat (q : ℕ) (a b : Bits) :
    (xGate q).mat (q + 1) a b = if a q ≠ b q ∧ ∀ k < q, a k = b k then 1 else 0 := by
  have hc : ∀ b : RC, MOk q (if b.1 = b.2 then .zero else .one : MEdge) := by
    intro b h
    split_ifs at h ⊢
    · exact absurd rfl h
    · trivial
  unfold xGate
  rw [makeM_mat hc]
  by_cases h : a q = b q
  · simp [h]
  · simp only [h, if_false, Edge.one, term_mat]
    simp [h]

/-- `X` on qubit 1 (a node on level 1) plus the identity (no node at all): entry
`(|00⟩, |00⟩)` of the sum is 1 and entry `(|10⟩, |00⟩)` is 1. -/
example : ∃ r, madd (xGate 1) .one = some r ∧
    r.mat 2 (fun _ => false) (fun _ => false) = 1 ∧
    r.mat 2 (fun q => decide (q = 1)) (fun _ => false) = 1 := by
  obtain ⟨r, h1, _, h3⟩ := c35_matrix (xGate_can 1) (y := .one)
    ⟨fun h => absurd h one_ne_zero, fun _ => trivial⟩
  refine ⟨r, h1, ?_, ?_⟩
  · rw [h3, xGate_mat, Edge.one, term_mat]; simp
  · rw [h3, xGate_mat, Edge.one, term_mat]
    rw [if_pos, if_neg]
    · simp
    · intro h; have := h 1 (by norm_num); simp at this
    · refine ⟨by simp, fun k hk => ?_⟩
      have : k = 0 := by omega
      subst this; simp

/-! ### C36 -/

/-- **C36.** Multiplication of matrices: always defined, and the result is the matrix
product over all `n`-bit strings. -/
theorem c36_matrix_matrix {n : ℕ} {x y : MEdge} (hx : MECan n x) (hy : MECan n y) :
    ∃ r, mmul x y = some r ∧ MECan n r ∧
      ∀ a b, r.mat n a b = ∑ t : Fin n → Bool, x.mat n a (fill t a) * y.mat n (fill t a) b := by
  obtain ⟨r, h1, h2, h3⟩ := mmul_spec hx.ok hy.ok
  exact ⟨r, h1, h2, fun a b => by rw [h3, matMul_eq]⟩

/-- **C36.** Multiplication of a matrix and a vector. -/
theorem c36_matrix_vector {n : ℕ} {x : MEdge} {y : VEdge} (hx : MECan n x) (hy : VECan n y) :
    ∃ r, mvmul x y = some r ∧ VECan n r ∧
      ∀ a, r.vec a = ∑ t : Fin n → Bool, x.mat n a (fill t a) * y.vec (fill t a) := by
  obtain ⟨r, h1, h2, h3⟩ := mvmul_spec hx.ok hy.ok
  exact ⟨r, h1, h2, fun a => by rw [h3, matVec_eq]⟩

/-- `X|1⟩ = |0⟩`. -/
example : ∃ r, mvmul (xGate 0) ketOne = some r ∧ r.vec (fun _ => false) = 1 ∧
    r.vec (fun _ => true) = 0 := by
  obtain ⟨r, h1, _, h3⟩ := mvmul_spec (xGate_can 0).ok ketOne_can.ok
  refine ⟨r, h1, ?_, ?_⟩
  · rw [h3, matVec, sumB, sumB, sumB, xGate_mat, xGate_mat, ketOne, makeV_vec, makeV_vec]
    simp [Edge.vec, vval]
  · rw [h3, matVec, sumB, sumB, sumB, xGate_mat, xGate_mat, ketOne, makeV_vec, makeV_vec]
    simp [Edge.vec, vval]

/-! ### C37 -/

/-- **C37.** `conjugate` conjugates every amplitude. -/
theorem c37_conjugate {n : ℕ} {x : VEdge} (hx : VECan n x) :
    VECan n (conjugate x) ∧ ∀ z, (conjugate x).vec z = conj (x.vec z) :=
  ⟨conjRec_can x.p x.w n hx, conjRec_vec x.p x.w⟩

/-- **C37.** Conjugating twice gives the same DD. -/
theorem c37_conjugate_twice {n : ℕ} {x : VEdge} (hx : VECan n x) :
    conjugate (conjugate x) = x := by
  obtain ⟨h1, h2⟩ := c37_conjugate hx
  obtain ⟨h3, h4⟩ := c37_conjugate h1
  exact vecan_inj h3 hx (fun z => by rw [h4, h2, Complex.conj_conj])

theorem ct_can {n : ℕ} {x : MEdge} (hx : MECan n x) : MECan n (conjTranspose x) := by
  obtain ⟨h1, h2⟩ := ctRec_spec x.p x.w n hx
  refine ⟨fun h0 => ?_, h1⟩
  by_cases hw : x.w = 0
  · unfold conjTranspose; rw [hx.1 hw]; rfl
  · obtain ⟨a, b, hab⟩ := (hx.2 hw).nonzero
    have h3 := h2 b a
    have h0' : (ctRec x.p x.w).w = 0 := h0
    rw [Edge.mat, h0', zero_mul] at h3
    have h4 : conj ((⟨x.p, x.w⟩ : MEdge).mat n a b) ≠ 0 := by
      rw [Ne, map_eq_zero]; exact mul_ne_zero hw hab
    exact absurd h3.symm h4

/-- **C37.** `conjugateTranspose` conjugates and transposes. -/
theorem c37_conjugate_transpose {n : ℕ} {x : MEdge} (hx : MECan n x) :
    MECan n (conjTranspose x) ∧ ∀ a b, (conjTranspose x).mat n a b = conj (x.mat n b a) :=
  ⟨ct_can hx, (ctRec_spec x.p x.w n hx).2⟩

/-- **C37.** Taking the conjugate transpose twice gives the same DD. -/
theorem c37_conjugate_transpose_twice {n : ℕ} {x : MEdge} (hx : MECan n x) :
    conjTranspose (conjTranspose x) = x := by
  obtain ⟨h1, h2⟩ := c37_conjugate_transpose hx
  obtain ⟨h3, h4⟩ := c37_conjugate_transpose h1
  exact mecan_inj h3 hx (fun a b => by rw [h4, h2, Complex.conj_conj])

/-- The conjugate transpose of `[[0, i], [0, 0]]` is `[[0, 0], [-i, 0]]`. -/
example : let m := makeM 0 (fun b => if b = (false, true) then .terminal Complex.I else .zero)
    (conjTranspose m).mat 1 (fun _ => true) (fun _ => false) = -Complex.I ∧
    (conjTranspose m).mat 1 (fun _ => false) (fun _ => true) = 0 := by
  intro m
  have hok : ∀ b : RC, MOk 0
      (if b = (false, true) then .terminal Complex.I else .zero : MEdge) := by
    intro b h
    split_ifs at h ⊢
    · trivial
    · exact absurd rfl h
  have hm : MECan 1 m := makeM_can hok
  have h := (c37_conjugate_transpose hm).2
  refine ⟨?_, ?_⟩
  · rw [h, makeM_mat hok]; simp [Edge.mat, mval]
  · rw [h, makeM_mat hok]; simp [Edge.mat]

/-! ### C38 -/

/-- **C38.** `innerProduct` is the Hermitian inner product of the represented vectors
over at least one qubit. -/
theorem c38_inner_product {n : ℕ} {x y : VEdge} (hx : VECan (n + 1) x) (hy : VECan (n + 1) y)
    (s : Bits) :
    innerProduct x y = ∑ t : Fin (n + 1) → Bool, conj (x.vec (fill t s)) * y.vec (fill t s) := by
  rw [innerProduct_spec hx hy s, ip_eq]

/-- **C38.** `fidelity` is its squared modulus. -/
theorem c38_fidelity {n : ℕ} {x y : VEdge} (hx : VECan (n + 1) x) (hy : VECan (n + 1) y)
    (s : Bits) :
    fidelity x y =
      normSq (∑ t : Fin (n + 1) → Bool, conj (x.vec (fill t s)) * y.vec (fill t s)) := by
  rw [fidelity, c38_inner_product hx hy s]

/-- **C38.** On zero qubits the function answers 0 although the inner product of the
scalars is not 0. -/
theorem c38_fails_without_qubits :
    VECan 0 (.one : VEdge) ∧ innerProduct (.one : VEdge) .one = 0 ∧
      ∑ t : Fin 0 → Bool, conj ((Edge.one : VEdge).vec (fill t (fun _ => false)))
        * (Edge.one : VEdge).vec (fill t (fun _ => false)) = 1 := by
  refine ⟨⟨fun h => absurd h one_ne_zero, fun _ => rfl⟩, by simp [innerProduct], ?_⟩
  simp [Edge.vec, vval]

/-- `⟨1|1⟩ = 1`. -/
example : innerProduct ketOne ketOne = 1 := by
  rw [innerProduct_spec ketOne_can ketOne_can (fun _ => false), ip, sumB, sumB, sumB, ketOne,
    makeV_vec, makeV_vec]
  simp [Edge.vec, vval]

/-- **C67.** `expectationValue(x, y)` of an observable on the qubits of the state is
the real part of `⟨y| x |y⟩`.
Missing from C67: states that are terminals (no qubits, or the zero vector), which an assertion of the code excludes. -/
theorem c67_expectation_partial {n : ℕ} {x : MEdge} {y : VEdge} (hx : MECan (n + 1) x)
    (hy : VECan (n + 1) y) (hy0 : y.w ≠ 0) (s : Bits) :
    expectationValue x y = some (∑ a : Fin (n + 1) → Bool, conj (y.vec (fill a s)) *
      ∑ t : Fin (n + 1) → Bool, x.mat (n + 1) (fill a s) (fill t (fill a s))
        * y.vec (fill t (fill a s))).re := by
  unfold expectationValue
  rw [if_neg]
  · obtain ⟨r, h1, h2, h3⟩ := c36_matrix_vector hx hy
    rw [h1, Option.map_some, c38_inner_product hy h2 s]
    simp only [h3]
  · rintro ⟨h1, h2⟩
    have hxw : x.w ≠ 0 := fun h => h1 (hx.1 h)
    have := (hx.2 hxw).var_lt h1
    rw [(hy.2 hy0).var_eq] at h2
    omega

/-- **C67.** Acting on more qubits than the state has is rejected. -/
theorem c67_rejects {n : ℕ} {x : MEdge} {y : VEdge} (hy : VCan (n + 1) y.p)
    (hx : x.p ≠ .term) (hv : n < x.p.var) : expectationValue x y = none := by
  unfold expectationValue
  rw [if_pos ⟨hx, by rw [hy.var_eq]; exact hv⟩]

/-- `⟨1|X|1⟩ = 0`. -/
example : expectationValue (xGate 0) ketOne = some 0 := by
  have hw : ketOne.w ≠ 0 := by
    intro h
    have h1 : ketOne.vec (fun _ => true) = 1 := by
      rw [ketOne, makeV_vec]; simp [Edge.vec, vval]
    rw [Edge.vec, h, zero_mul] at h1
    exact zero_ne_one h1
  rw [c67_expectation_partial (xGate_can 0) ketOne_can hw (fun _ => false)]
  congr 1
  have h0 : ∀ z : Bits, ketOne.vec z = if z 0 then 1 else 0 := by
    intro z
    rw [ketOne, makeV_vec]
    cases z 0 <;> simp [Edge.vec, vval]
  refine Eq.trans (congrArg Complex.re (a₂ := sumB 1 (fun z => conj (ketOne.vec z) *
    sumB 1 (fun z' => (xGate 0).mat 1 z z' * ketOne.vec z') z) (fun _ => false)) ?_) ?_
  · simp only [sumB_eq]
  · simp [sumB, xGate_mat 0, h0]

/-! ### C66 -/

/-- **C66.** `addMagnitudes` on vectors: the squared modulus of every entry is the sum
of the squared moduli. -/
theorem c66_vector_partial {n : ℕ} {x y : VEdge} (hx : VECan n x) (hy : VECan n y) :
    ∃ r, vaddMag n x y = some r ∧ VOk n r ∧
      ∀ z, normSq (r.vec z) = normSq (x.vec z) + normSq (y.vec z) :=
  recV_spec magPre_goodV n x y hx.ok hy.ok

/-- **C66.** The same for matrices. -/
theorem c66_matrix_partial {n : ℕ} {x y : MEdge} (hx : MECan n x) (hy : MECan n y) :
    ∃ r, maddMag n x y = some r ∧ MOk n r ∧
      ∀ a b, normSq (r.mat n a b) = normSq (x.mat n a b) + normSq (y.mat n a b) :=
  recM_spec magPre_goodM n x y hx.ok hy.ok

/-- The state `(|0⟩ - |1⟩)/√2`. -/
def ketMinus : VEdge := makeV 0 (fun b => .terminal (if b then -1 else 1))

/-- **C66.** The documented result `√(|x|² + |y|²)` itself is not returned: phases
inside the operand survive when the other operand is zero. -/
theorem c66_phases_survive : ∃ r, vaddMag 1 ketMinus .zero = some r ∧
    VECan 1 ketMinus ∧
    r.vec (fun _ => true) ≠
      ((√(normSq (ketMinus.vec (fun _ => true)) + normSq ((.zero : VEdge).vec (fun _ => true))) :
        ℝ) : ℂ) := by
  have hcan : VECan 1 ketMinus := makeV_can (fun b _ => rfl)
  have hv : ∀ z : Bits, ketMinus.vec z = if z 0 then -1 else 1 := by
    intro z; rw [ketMinus, makeV_vec]; simp [Edge.vec, vval]
  have hw : ketMinus.w ≠ 0 := by
    intro h
    have := hv (fun _ => false)
    rw [Edge.vec, h, zero_mul] at this
    simp at this
  have hw' : ketMinus.w = ((√(normSq ketMinus.w) : ℝ) : ℂ) := by
    have h1 : normSq (1 : ℂ) = 1 := map_one _
    have h2 : normSq (-1 : ℂ) = 1 := by simp
    have : ketMinus.w = ((√2 : ℝ) : ℂ) := by
      simp [ketMinus, makeV, vNormalize, one_add_one_eq_two]
    rw [this, normSq_sqrt (by norm_num)]
  refine ⟨⟨ketMinus.p, ((√(normSq ketMinus.w) : ℝ) : ℂ)⟩, ?_, hcan, ?_⟩
  · unfold vaddMag
    rw [recV, magPre, if_neg hw]
    simp
  · have e : (⟨ketMinus.p, ((√(normSq ketMinus.w) : ℝ) : ℂ)⟩ : VEdge) = ketMinus := by
      rw [← hw']
    rw [e, hv]
    simp only [if_true, zero_vec, map_zero, add_zero]
    rw [show normSq (-1 : ℂ) = 1 by simp, Real.sqrt_one]
    norm_num

end MQT.DD
