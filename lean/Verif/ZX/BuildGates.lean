/-
What the functions of `FunctionalityConstruction.cpp` that append gates do to the state of the wires
(`Verif/ZX/Build.lean`), and comparison with the matrices of the gates.
-/
import Verif.ZX.BuildSteps

set_option autoImplicit false
set_option linter.unusedSimpArgs false

open Classical

open Function (update)

namespace MQT.ZX

open MQT.IR MQT.Opt

namespace Build

/-! ### Numbers of modulus one -/

/-- `e^(ix)`. -/
noncomputable def E (x : ℝ) : ℂ := Complex.exp (x * Complex.I)

theorem E_eq (x : ℝ) : E x = ⟨Real.cos x, Real.sin x⟩ := by
  apply Complex.ext
  · exact Complex.exp_ofReal_mul_I_re x
  · exact Complex.exp_ofReal_mul_I_im x

theorem E_add (x y : ℝ) : E (x + y) = E x * E y := by
  unfold E
  rw [← Complex.exp_add]
  congr 1
  push_cast
  ring

theorem E_ne (x : ℝ) : E x ≠ 0 := Complex.exp_ne_zero _

theorem E_zero : E 0 = 1 := by simp [E]

theorem E_neg (x : ℝ) : E (-x) = (E x)⁻¹ := by
  apply eq_inv_of_mul_eq_one_left
  rw [← E_add, neg_add_cancel, E_zero]

theorem E_half (x : ℝ) : E (x / 2) * E (x / 2) = E x := by rw [← E_add, add_halves]

theorem cos_E (x : ℝ) : (⟨Real.cos x, 0⟩ : ℂ) = (E x + (E x)⁻¹) / 2 := by
  rw [← E_neg, E_eq, E_eq, Real.cos_neg, Real.sin_neg]
  apply Complex.ext <;> simp

theorem sin_E (x : ℝ) : (⟨0, Real.sin x⟩ : ℂ) = (E x - (E x)⁻¹) / 2 := by
  rw [← E_neg, E_eq, E_eq, Real.cos_neg, Real.sin_neg]
  apply Complex.ext <;> simp

theorem sin_E' (x : ℝ) : (⟨Real.sin x, 0⟩ : ℂ) = -Complex.I * ((E x - (E x)⁻¹) / 2) := by
  rw [← sin_E]
  apply Complex.ext <;> simp

theorem neg_sin_E (x : ℝ) : (⟨0, -Real.sin x⟩ : ℂ) = ((E x)⁻¹ - E x) / 2 := by
  have := sin_E x
  rw [show (⟨0, -Real.sin x⟩ : ℂ) = -⟨0, Real.sin x⟩ by apply Complex.ext <;> simp, this]
  ring

theorem conj_E (x : ℝ) : (⟨Real.cos x, -Real.sin x⟩ : ℂ) = (E x)⁻¹ := by
  rw [← E_neg, E_eq, Real.cos_neg, Real.sin_neg]

theorem rat_inRange {q : ℚ} (h : -3 < q ∧ q ≤ 3) : (Phase.ofRat q).const.InRange := (PiRational.modPi_range_iff ⟨q⟩).2 h

theorem u_rat (ρ : ℕ → ℝ) (q : ℚ) : (Phase.ofRat q).u ρ = E (q * Real.pi) := Phase.u_ofRat ρ q

theorem E_pi : E Real.pi = -1 := Complex.exp_pi_mul_I

theorem E_half_pi : E (Real.pi / 2) = Complex.I := by
  unfold E
  push_cast
  exact Complex.exp_pi_div_two_mul_I

theorem r2_eq : Real.cos (Real.pi / 4) = r2 ∧ Real.sin (Real.pi / 4) = r2 := by
  rw [Real.cos_pi_div_four, Real.sin_pi_div_four]
  exact ⟨rfl, rfl⟩

theorem E_quarter : E (Real.pi / 4) = ⟨r2, r2⟩ := by rw [E_eq, r2_eq.1, r2_eq.2]

theorem u_one (ρ : ℕ → ℝ) : (Phase.ofRat 1).u ρ = -1 := Phase.u_pi ρ

theorem u_rat0 (ρ : ℕ → ℝ) : (Phase.ofRat 0).u ρ = 1 := by rw [u_rat]; simp [E_zero]

theorem u_three (ρ : ℕ → ℝ) : (Phase.ofRat 3).u ρ = -1 := by
  rw [u_rat, show ((3 : ℚ) : ℝ) * Real.pi = Real.pi + Real.pi + Real.pi by push_cast; ring, E_add, E_add, E_pi]
  norm_num

theorem u_half (ρ : ℕ → ℝ) : (Phase.ofRat (1 / 2)).u ρ = Complex.I := by
  rw [u_rat, show ((1 / 2 : ℚ) : ℝ) * Real.pi = Real.pi / 2 by push_cast; ring, E_half_pi]

theorem u_nhalf (ρ : ℕ → ℝ) : (Phase.ofRat (-1 / 2)).u ρ = -Complex.I := by
  rw [u_rat, show ((-1 / 2 : ℚ) : ℝ) * Real.pi = -(Real.pi / 2) by push_cast; ring, E_neg, E_half_pi, Complex.inv_I]

theorem u_quarter (ρ : ℕ → ℝ) : (Phase.ofRat (1 / 4)).u ρ = ⟨r2, r2⟩ := by
  rw [u_rat, show ((1 / 4 : ℚ) : ℝ) * Real.pi = Real.pi / 4 by push_cast; ring, E_quarter]

theorem u_nquarter (ρ : ℕ → ℝ) : (Phase.ofRat (-1 / 4)).u ρ = ⟨r2, -r2⟩ := by
  rw [u_rat, show ((-1 / 4 : ℚ) : ℝ) * Real.pi = -(Real.pi / 4) by push_cast; ring, E_eq, Real.cos_neg, Real.sin_neg, r2_eq.1,
    r2_eq.2]

/-! ### Gates on two wires -/

theorem phase_app1 (c : ℂ) (M : Mat1) (q : ℕ) (ψ : State) : phase c (app1 M q ψ) = app1 (c • M) q ψ := by
  funext y
  simp only [phase, app1, Finset.mul_sum, Matrix.smul_apply, smul_eq_mul, mul_assoc]

theorem phase_app2 (c : ℂ) (M : Mat2) (q0 q1 : ℕ) (ψ : State) : phase c (app2 M q0 q1 ψ) = app2 (c • M) q0 q1 ψ := by
  funext y
  simp only [phase, app2, Finset.mul_sum, Matrix.smul_apply, smul_eq_mul, mul_assoc]

/-- Two spiders and an edge between them. -/
theorem does_link {n : ℕ} {c0 c1 : VType} (h0 : c0 ≠ .boundary) (h1 : c1 ≠ .boundary) {q0 q1 : ℕ} (hne : q0 ≠ q1)
    {φ0 φ1 : Phase} (r0 : φ0.const.InRange) (r1 : φ1.const.InRange) {t : EType} (M : Mat2)
    (hM : ∀ p r o0 o1, ew t c0 c1 p r * (ew .simple c0 .boundary p o0 * ew .simple c1 .boundary r o1) =
      ∑ s : Bool × Bool, M (o0, o1) s * (ew .simple c0 .boundary p s.1 * ew .simple c1 .boundary r s.2)) :
    Does n (seq [spider c0 q0 φ0 .simple, spider c1 q1 φ1 .simple, link q0 q1 t]) fun ρ ψ =>
      app2 M q0 q1 (app1 (spiderMat c1 .simple (φ1.u ρ)) q1 (app1 (spiderMat c0 .simple (φ0.u ρ)) q0 ψ)) where
  hom ρ c ψ := by rw [app1_hom, app1_hom, app2_hom]
  step b b' h e := by
    obtain ⟨b1, e1, f1⟩ := bind_ok e
    obtain ⟨b2, e2, f2⟩ := bind_ok f1
    obtain ⟨b3, e3, f3⟩ := bind_ok f2
    injection f3 with f3
    subst f3
    obtain ⟨w1, k1, p1, a1⟩ := (does_spider h0 q0 r0 .simple).step b b1 h e1
    obtain ⟨w2, k2, p2, a2⟩ := (does_spider h1 q1 r1 .simple).step b1 b2 w1 e2
    obtain ⟨w3, a3⟩ := link_step h0 h1 (ends_of_spiders h0 h1 hne r0 r1 h e1 e2) e3 M hM
    refine ⟨w3, k2 * k1, mul_pos p2 p1, fun ρ β => ?_⟩
    rw [a3, a2, a1, app1_hom, app2_hom, app2_hom, phase_phase, Complex.ofReal_mul]

/-- Two spiders and a phase gadget. -/
theorem does_gadget {n : ℕ} {m l : VType} (hm : m ≠ .boundary) (hl : l ≠ .boundary) {c0 c1 : VType} (h0 : c0 ≠ .boundary)
    (h1 : c1 ≠ .boundary) {q0 q1 : ℕ} (hne : q0 ≠ q1)
    {φ0 φ1 φ : Phase} (r0 : φ0.const.InRange) (r1 : φ1.const.InRange) (r : φ.const.InRange) {t : EType} (M : (ℕ → ℝ) → Mat2)
    (hM : ∀ ρ p r o0 o1, gfac m l t c0 c1 (φ.u ρ) p r * (ew .simple c0 .boundary p o0 * ew .simple c1 .boundary r o1) =
      ∑ s : Bool × Bool, M ρ (o0, o1) s * (ew .simple c0 .boundary p s.1 * ew .simple c1 .boundary r s.2)) :
    Does n (seq [spider c0 q0 φ0 .simple, spider c1 q1 φ1 .simple, gadget m l t φ q0 q1]) fun ρ ψ =>
      app2 (M ρ) q0 q1 (app1 (spiderMat c1 .simple (φ1.u ρ)) q1 (app1 (spiderMat c0 .simple (φ0.u ρ)) q0 ψ)) where
  hom ρ c ψ := by rw [app1_hom, app1_hom, app2_hom]
  step b b' h e := by
    obtain ⟨b1, e1, f1⟩ := bind_ok e
    obtain ⟨b2, e2, f2⟩ := bind_ok f1
    obtain ⟨b3, e3, f3⟩ := bind_ok f2
    injection f3 with f3
    subst f3
    obtain ⟨w1, k1, p1, a1⟩ := (does_spider h0 q0 r0 .simple).step b b1 h e1
    obtain ⟨w2, k2, p2, a2⟩ := (does_spider h1 q1 r1 .simple).step b1 b2 w1 e2
    obtain ⟨w3, a3⟩ := gadget_step hm hl h0 h1 r (ends_of_spiders h0 h1 hne r0 r1 h e1 e2) e3 M hM
    refine ⟨w3, k2 * k1, mul_pos p2 p1, fun ρ β => ?_⟩
    rw [a3, a2, a1, app1_hom, app2_hom, app2_hom, phase_phase, Complex.ofReal_mul]

/-! ### States as functions of one, two or three bits -/

/-- The entries of a state for the values of one bit. -/
def sl1 (q : ℕ) (y : Bits) (ψ : State) (a : Bool) : ℂ := ψ (update y q a)

/-- The entries of a state for the values of two bits. -/
def sl2 (q0 q1 : ℕ) (y : Bits) (ψ : State) (a b : Bool) : ℂ := ψ (update (update y q0 a) q1 b)

/-- The entries of a state for the values of three bits. -/
def sl3 (q0 q1 q2 : ℕ) (y : Bits) (ψ : State) (a b c : Bool) : ℂ := ψ (update (update (update y q0 a) q1 b) q2 c)

theorem ext1 (q : ℕ) {φ ψ : State} (h : ∀ y a, sl1 q y φ a = sl1 q y ψ a) : φ = ψ := by
  funext y
  have := h y (y q)
  unfold sl1 at this
  rwa [Function.update_eq_self] at this

theorem ext2 {q0 q1 : ℕ} {φ ψ : State} (h : ∀ y a b, sl2 q0 q1 y φ a b = sl2 q0 q1 y ψ a b) : φ = ψ := by
  funext y
  have := h y (y q0) (y q1)
  unfold sl2 at this
  rwa [Function.update_eq_self, Function.update_eq_self] at this

theorem ext3 {q0 q1 q2 : ℕ} {φ ψ : State} (h : ∀ y a b c, sl3 q0 q1 q2 y φ a b c = sl3 q0 q1 q2 y ψ a b c) : φ = ψ := by
  funext y
  have := h y (y q0) (y q1) (y q2)
  unfold sl3 at this
  rwa [Function.update_eq_self, Function.update_eq_self, Function.update_eq_self] at this

theorem sl1_phase (q : ℕ) (y : Bits) (c : ℂ) (ψ : State) (a : Bool) : sl1 q y (phase c ψ) a = c * sl1 q y ψ a := rfl

theorem sl1_app1 (q : ℕ) (y : Bits) (M : Mat1) (ψ : State) (a : Bool) :
    sl1 q y (app1 M q ψ) a = M a true * sl1 q y ψ true + M a false * sl1 q y ψ false := by
  simp only [sl1, app1, Fintype.sum_bool, Function.update_self, Function.update_idem]

section Two

variable {q0 q1 : ℕ} (y : Bits) (ψ : State) (a b : Bool)

theorem sl2_phase (c : ℂ) : sl2 q0 q1 y (phase c ψ) a b = c * sl2 q0 q1 y ψ a b := rfl

theorem sl2_fst (hne : q0 ≠ q1) (M : Mat1) :
    sl2 q0 q1 y (app1 M q0 ψ) a b = M a true * sl2 q0 q1 y ψ true b + M a false * sl2 q0 q1 y ψ false b := by
  simp only [sl2, app1, Fintype.sum_bool, Function.update_self, Function.update_of_ne hne]
  rw [Function.update_comm hne, Function.update_comm hne]
  simp only [Function.update_idem]
  rw [Function.update_comm hne]

theorem sl2_snd (M : Mat1) :
    sl2 q0 q1 y (app1 M q1 ψ) a b = M b true * sl2 q0 q1 y ψ a true + M b false * sl2 q0 q1 y ψ a false := by
  simp only [sl2, app1, Fintype.sum_bool, Function.update_self, Function.update_idem]

theorem upd2 (hne : q0 ≠ q1) (c d : Bool) : update (update (update (update y q0 a) q1 b) q0 c) q1 d = update (update y q0 c) q1 d :=
  update_pair hne a b c d

theorem sl2_app2 (hne : q0 ≠ q1) (M : Mat2) : sl2 q0 q1 y (app2 M q0 q1 ψ) a b =
    M (a, b) (true, true) * sl2 q0 q1 y ψ true true + M (a, b) (true, false) * sl2 q0 q1 y ψ true false +
      (M (a, b) (false, true) * sl2 q0 q1 y ψ false true + M (a, b) (false, false) * sl2 q0 q1 y ψ false false) := by
  simp only [sl2, app2, Fintype.sum_prod_type, Fintype.sum_bool, Function.update_self, Function.update_of_ne hne,
    upd2 y a b hne]

theorem sl2_app2' (hne : q0 ≠ q1) (M : Mat2) : sl2 q0 q1 y (app2 M q1 q0 ψ) a b =
    M (b, a) (true, true) * sl2 q0 q1 y ψ true true + M (b, a) (true, false) * sl2 q0 q1 y ψ false true +
      (M (b, a) (false, true) * sl2 q0 q1 y ψ true false + M (b, a) (false, false) * sl2 q0 q1 y ψ false false) := by
  rw [app2_swap M hne, sl2_app2 y _ a b hne]
  simp only [Matrix.submatrix_apply, Prod.swap_prod_mk]
  ring

theorem sl2_ctl (hne : q0 ≠ q1) (A : State → State) :
    sl2 q0 q1 y (ctl {(q0, true)} A ψ) a b = if a = true then sl2 q0 q1 y (A ψ) a b else sl2 q0 q1 y ψ a b := by
  simp only [sl2, ctl, Sat]
  simp [Function.update_of_ne hne]

end Two

/-- The state after a controlled X. -/
def cxState (c t : ℕ) (ψ : State) : State := fun y => ψ (update y t (xor (y t) (y c)))

theorem sl2_cx {q0 q1 : ℕ} (hne : q0 ≠ q1) (y : Bits) (ψ : State) (a b : Bool) :
    sl2 q0 q1 y (cxState q0 q1 ψ) a b = sl2 q0 q1 y ψ a (xor b a) := by
  simp only [sl2, cxState, Function.update_self, Function.update_of_ne hne, Function.update_idem]

theorem sl2_xc {q0 q1 : ℕ} (hne : q0 ≠ q1) (y : Bits) (ψ : State) (a b : Bool) :
    sl2 q0 q1 y (cxState q1 q0 ψ) a b = sl2 q0 q1 y ψ (xor a b) b := by
  simp only [sl2, cxState, Function.update_self, Function.update_of_ne hne]
  rw [Function.update_comm hne, Function.update_idem, Function.update_comm hne]

theorem cx_hom (c t : ℕ) (k : ℂ) (ψ : State) : cxState c t (phase k ψ) = phase k (cxState c t ψ) := rfl

/-- Compare entries given by matrices. -/
macro "entries" : tactic => `(tactic| (
  simp only [mat1, mat2, Bool.xor_false, Bool.xor_true, Bool.not_true, Bool.not_false, if_true, if_false, Bool.false_eq_true]
    <;> push_cast <;> ring1))

theorem does_cnot {n c t : ℕ} (hne : c ≠ t) : Does n (cnot c t) fun _ => cxState c t := by
  have h := does_link (n := n) (c0 := .z) (c1 := .x) (by decide) (by decide) hne zero_inRange zero_inRange (t := .simple)
    (mat2 1 0 0 0 0 1 0 0 0 0 0 1 0 0 1 0) (by
      intro p r o0 o1
      simp only [Fintype.sum_prod_type, Fintype.sum_bool]
      cases p <;> cases r <;> cases o0 <;> cases o1 <;> simp [ew, odd, mat2])
  refine h.scale (k := 2) (by norm_num) fun ρ ψ => ext2 (q0 := c) (q1 := t) fun y a b => ?_
  rw [sl2_app2 y _ a b hne, zMat, xMat, sl2_phase, sl2_cx hne]
  simp only [sl2_snd, sl2_fst _ _ _ _ hne, Phase.u_zero]
  cases a <;> cases b <;> entries

theorem does_cz {n c t : ℕ} (hne : c ≠ t) : Does n (seq [zSpider c, zSpider t, link c t .hadamard]) fun _ =>
    ctl {(c, true)} (app1 (mat1 1 0 0 (-1)) t) := by
  have h := does_link (n := n) (c0 := .z) (c1 := .z) (by decide) (by decide) hne zero_inRange zero_inRange (t := .hadamard)
    (mat2 1 0 0 0 0 1 0 0 0 0 1 0 0 0 0 (-1)) (by
      intro p r o0 o1
      simp only [Fintype.sum_prod_type, Fintype.sum_bool]
      cases p <;> cases r <;> cases o0 <;> cases o1 <;> simp [ew, odd, mat2])
  refine h.congr fun ρ ψ => ext2 (q0 := c) (q1 := t) fun y a b => ?_
  rw [sl2_app2 y _ a b hne, zMat, sl2_ctl y _ a b hne]
  simp only [sl2_snd, sl2_fst _ _ _ _ hne, Phase.u_zero]
  cases a <;> cases b <;> entries

/-- The part of `addRzz` before the global phase. -/
theorem does_zz {n q0 q1 : ℕ} (hne : q0 ≠ q1) {φ : Phase} (r : φ.const.InRange) :
    Does n (seq [zSpider q0, zSpider q1, gadget .x .z .simple φ q0 q1]) fun ρ =>
      app2 (mat2 1 0 0 0 0 (φ.u ρ) 0 0 0 0 (φ.u ρ) 0 0 0 0 1) q0 q1 := by
  have h := does_gadget (n := n) (m := .x) (l := .z) (by decide) (by decide) (c0 := .z) (c1 := .z) (by decide) (by decide) hne
    zero_inRange zero_inRange r (t := .simple)
    (fun ρ => mat2 2 0 0 0 0 (2 * φ.u ρ) 0 0 0 0 (2 * φ.u ρ) 0 0 0 0 2) (by
      intro ρ p r o0 o1
      simp only [Fintype.sum_prod_type, Fintype.sum_bool, gfac]
      cases p <;> cases r <;> cases o0 <;> cases o1 <;> simp [ew, odd, mat2] <;> ring)
  refine h.scale (k := 2) (by norm_num) fun ρ ψ => ext2 (q0 := q0) (q1 := q1) fun y a b => ?_
  rw [sl2_app2 y _ a b hne, zMat, sl2_phase, sl2_app2 y _ a b hne]
  simp only [sl2_snd, sl2_fst _ _ _ _ hne, Phase.u_zero]
  cases a <;> cases b <;> entries

/-- The part of `addRxx` before the global phase. -/
theorem does_xx {n q0 q1 : ℕ} (hne : q0 ≠ q1) {φ : Phase} (r : φ.const.InRange) :
    Does n (seq [xSpider q0, xSpider q1, gadget .z .x .simple φ q0 q1]) fun ρ =>
      app2 (mat2 (1 + φ.u ρ) 0 0 (1 - φ.u ρ) 0 (1 + φ.u ρ) (1 - φ.u ρ) 0 0 (1 - φ.u ρ) (1 + φ.u ρ) 0
        (1 - φ.u ρ) 0 0 (1 + φ.u ρ)) q0 q1 := by
  have h := does_gadget (n := n) (m := .z) (l := .x) (by decide) (by decide) (c0 := .x) (c1 := .x) (by decide) (by decide) hne
    zero_inRange zero_inRange r (t := .simple)
    (fun ρ => mat2 (1 + φ.u ρ) 0 0 (1 - φ.u ρ) 0 (1 + φ.u ρ) (1 - φ.u ρ) 0 0 (1 - φ.u ρ) (1 + φ.u ρ) 0
        (1 - φ.u ρ) 0 0 (1 + φ.u ρ)) (by
      intro ρ p r o0 o1
      simp only [Fintype.sum_prod_type, Fintype.sum_bool, gfac]
      cases p <;> cases r <;> cases o0 <;> cases o1 <;> simp [ew, odd, mat2] <;> ring)
  refine h.scale (k := 4) (by norm_num) fun ρ ψ => ext2 (q0 := q0) (q1 := q1) fun y a b => ?_
  rw [sl2_app2 y _ a b hne, xMat, sl2_phase, sl2_app2 y _ a b hne]
  simp only [sl2_snd, sl2_fst _ _ _ _ hne, Phase.u_zero]
  cases a <;> cases b <;> entries

/-- The part of `addRzx` before the global phase. -/
theorem does_zx {n q0 q1 : ℕ} (hne : q0 ≠ q1) {φ : Phase} (r : φ.const.InRange) :
    Does n (seq [zSpider q0, xSpider q1, gadget .x .z .hadamard φ q0 q1]) fun ρ =>
      app2 (mat2 (1 + φ.u ρ) (1 - φ.u ρ) 0 0 (1 - φ.u ρ) (1 + φ.u ρ) 0 0 0 0 (1 + φ.u ρ) (-(1 - φ.u ρ))
        0 0 (-(1 - φ.u ρ)) (1 + φ.u ρ)) q0 q1 := by
  have h := does_gadget (n := n) (m := .x) (l := .z) (by decide) (by decide) (c0 := .z) (c1 := .x) (by decide) (by decide) hne
    zero_inRange zero_inRange r (t := .hadamard)
    (fun ρ => mat2 (1 + φ.u ρ) (1 - φ.u ρ) 0 0 (1 - φ.u ρ) (1 + φ.u ρ) 0 0 0 0 (1 + φ.u ρ) (-(1 - φ.u ρ))
        0 0 (-(1 - φ.u ρ)) (1 + φ.u ρ)) (by
      intro ρ p r o0 o1
      simp only [Fintype.sum_prod_type, Fintype.sum_bool, gfac]
      cases p <;> cases r <;> cases o0 <;> cases o1 <;> simp [ew, odd, mat2] <;> ring)
  refine h.scale (k := 2) (by norm_num) fun ρ ψ => ext2 (q0 := q0) (q1 := q1) fun y a b => ?_
  rw [sl2_app2 y _ a b hne, zMat, xMat, sl2_phase, sl2_app2 y _ a b hne]
  simp only [sl2_snd, sl2_fst _ _ _ _ hne, Phase.u_zero]
  cases a <;> cases b <;> entries

/-! ### Sequences -/

theorem seq_append (l m : List Action) (b : Build) : seq (l ++ m) b = (seq l b).bind (seq m) := by
  induction l generalizing b with
  | nil => rfl
  | cons f l ih =>
    show (f b).bind (seq (l ++ m)) = ((f b).bind (seq l)).bind (seq m)
    cases f b with
    | ok a => exact ih a
    | throw => rfl
    | ub => rfl

theorem Does.append {n : ℕ} {l m : List Action} {F G : (ℕ → ℝ) → State → State} (hl : Does n (seq l) F)
    (hm : Does n (seq m) G) : Does n (seq (l ++ m)) fun ρ ψ => G ρ (F ρ ψ) where
  hom ρ c ψ := by rw [hl.hom, hm.hom]
  step b b' h e := by
    rw [seq_append] at e
    obtain ⟨b1, e1, e2⟩ := bind_ok e
    obtain ⟨w1, k1, p1, a1⟩ := hl.step b b1 h e1
    obtain ⟨w2, k2, p2, a2⟩ := hm.step b1 b' w1 e2
    refine ⟨w2, k2 * k1, mul_pos p2 p1, fun ρ β => ?_⟩
    rw [a2, a1, hm.hom, phase_phase, Complex.ofReal_mul]

theorem Does.one {n : ℕ} {f : Action} {F : (ℕ → ℝ) → State → State} (hf : Does n f F) : Does n (seq [f]) F := hf.cons .skip

/-- The phase of a rotation, once it is known. -/
theorem does_rot {n : ℕ} {φ p : Phase} {un : Option ℝ} (e : rotPhase φ un = .ok p) : Does n (rot φ un) fun ρ => phase (p.u ρ) :=
  (does_gphase p).of_eq fun b b' h => by
    unfold rot at h
    rw [e] at h
    exact h

/-! ### Rotations -/

theorem rzMat_E (a : ℝ) : rzMat a = (E (a / 2))⁻¹ • mat1 1 0 0 (E a) := by
  unfold rzMat
  rw [conj_E, ← E_eq, ← E_half a]
  have := E_ne (a / 2)
  apply mat1_ext <;> simp only [mat1, Matrix.smul_apply, smul_eq_mul, mul_zero] <;> field_simp

theorem rxMat_E (a : ℝ) : rxMat a = (2 * E (a / 2))⁻¹ • mat1 (1 + E a) (1 - E a) (1 - E a) (1 + E a) := by
  unfold rxMat
  rw [cos_E, neg_sin_E, ← E_half a]
  have := E_ne (a / 2)
  apply mat1_ext <;> simp only [mat1, Matrix.smul_apply, smul_eq_mul] <;> field_simp <;> ring

theorem rzzMat_E (a : ℝ) : rzzMat a = (E (a / 2))⁻¹ • mat2 1 0 0 0 0 (E a) 0 0 0 0 (E a) 0 0 0 0 1 := by
  simp only [rzzMat]
  rw [conj_E, ← E_eq, ← E_half a]
  have := E_ne (a / 2)
  ext ⟨r0, r1⟩ ⟨c0, c1⟩
  cases r0 <;> cases r1 <;> cases c0 <;> cases c1 <;> simp only [mat2, Matrix.smul_apply, smul_eq_mul, mul_zero] <;> field_simp

theorem rxxMat_E (a : ℝ) : rxxMat a = (2 * E (a / 2))⁻¹ • mat2 (1 + E a) 0 0 (1 - E a) 0 (1 + E a) (1 - E a) 0 0 (1 - E a) (1 + E a) 0
        (1 - E a) 0 0 (1 + E a) := by
  simp only [rxxMat]
  rw [cos_E, neg_sin_E, ← E_half a]
  have := E_ne (a / 2)
  ext ⟨r0, r1⟩ ⟨c0, c1⟩
  cases r0 <;> cases r1 <;> cases c0 <;> cases c1 <;> simp only [mat2, Matrix.smul_apply, smul_eq_mul, mul_zero] <;> field_simp <;> ring

theorem rzxMat_E (a : ℝ) : rzxMat a = (2 * E (a / 2))⁻¹ • mat2 (1 + E a) (1 - E a) 0 0 (1 - E a) (1 + E a) 0 0 0 0 (1 + E a) (-(1 - E a))
        0 0 (-(1 - E a)) (1 + E a) := by
  simp only [rzxMat]
  rw [cos_E, neg_sin_E, sin_E, ← E_half a]
  have := E_ne (a / 2)
  ext ⟨r0, r1⟩ ⟨c0, c1⟩
  cases r0 <;> cases r1 <;> cases c0 <;> cases c1 <;> simp only [mat2, Matrix.smul_apply, smul_eq_mul, mul_zero] <;> field_simp <;> ring

section Gates

variable {n q q0 q1 : ℕ} {φ p : Phase} {un : Option ℝ} (hr : φ.const.InRange) {a : (ℕ → ℝ) → ℝ} (ha : ∀ ρ, φ.u ρ = E (a ρ))

include hr ha

theorem does_rz (e : rotPhase φ un = .ok p) : Does n (rz φ q un) fun ρ ψ => phase (p.u ρ * E (a ρ / 2)) (app1 (rzMat (a ρ)) q ψ) := by
  refine ((does_rot e).cons (does_z q hr).one).congr fun ρ ψ => ?_
  have := E_ne (a ρ / 2)
  rw [rzMat_E, ha, app1_hom, phase_app1, phase_app1, smul_smul, mul_assoc, mul_inv_cancel₀ this, mul_one]

theorem does_rx : Does n (rx φ q) fun ρ ψ => phase (E (a ρ / 2)) (app1 (rxMat (a ρ)) q ψ) := by
  refine (does_x q hr).scale (k := 2) (by norm_num) fun ρ ψ => ?_
  have := E_ne (a ρ / 2)
  rw [rxMat_E, ha, phase_app1, phase_app1, smul_smul, smul_smul]
  push_cast
  rw [mul_inv_cancel₀ (by simpa using this), one_smul]

theorem does_rzz (hne : q0 ≠ q1) (e : rotPhase φ un = .ok p) :
    Does n (rzz φ q0 q1 un) fun ρ ψ => phase (p.u ρ * E (a ρ / 2)) (app2 (rzzMat (a ρ)) q0 q1 ψ) := by
  refine ((does_zz hne hr).append (does_rot e).one).congr fun ρ ψ => ?_
  have := E_ne (a ρ / 2)
  rw [rzzMat_E, ha, phase_app2, phase_app2, smul_smul, mul_assoc, mul_inv_cancel₀ this, mul_one]

theorem does_rxx (hne : q0 ≠ q1) (e : rotPhase φ un = .ok p) :
    Does n (rxx φ q0 q1 un) fun ρ ψ => phase (p.u ρ * E (a ρ / 2)) (app2 (rxxMat (a ρ)) q0 q1 ψ) := by
  refine ((does_xx hne hr).append (does_rot e).one).scale (k := 2) (by norm_num) fun ρ ψ => ?_
  have := E_ne (a ρ / 2)
  rw [rxxMat_E, ha, phase_app2, phase_app2, phase_app2, smul_smul, smul_smul]
  congr 2
  push_cast
  field_simp

theorem does_rzx (hne : q0 ≠ q1) (e : rotPhase φ un = .ok p) :
    Does n (rzx φ q0 q1 un) fun ρ ψ => phase (p.u ρ * E (a ρ / 2)) (app2 (rzxMat (a ρ)) q0 q1 ψ) := by
  refine ((does_zx hne hr).append (does_rot e).one).scale (k := 2) (by norm_num) fun ρ ψ => ?_
  have := E_ne (a ρ / 2)
  rw [rzxMat_E, ha, phase_app2, phase_app2, phase_app2, smul_smul, smul_smul]
  congr 2
  push_cast
  field_simp

end Gates

/-! ### Other gates -/

theorem I_mk : (⟨0, 1⟩ : ℂ) = Complex.I := rfl

theorem negI_mk : (⟨0, -1⟩ : ℂ) = -Complex.I := by apply Complex.ext <;> simp

theorem r2_mk (x : ℝ) : (⟨x, 0⟩ : ℂ) = (x : ℂ) := rfl

theorem mk_I (x y : ℝ) : (⟨x, y⟩ : ℂ) = x + y * Complex.I := by apply Complex.ext <;> simp

theorem r2_sqC : (r2 : ℂ) * r2 = 1 / 2 := by
  rw [← Complex.ofReal_mul, r2_sq]; norm_num

theorem r2_pos : 0 < r2 := by unfold r2; positivity

theorem does_had {n q : ℕ} : Does n (zSpider q Phase.zero .hadamard) fun _ =>
    app1 (mat1 ⟨r2, 0⟩ ⟨r2, 0⟩ ⟨r2, 0⟩ ⟨-r2, 0⟩) q := by
  refine (does_h q).scale (k := 2 * r2) (mul_pos two_pos r2_pos) fun ρ ψ => ext1 q fun y a => ?_
  have h := r2_sqC
  simp only [sl1_phase, sl1_app1, r2_mk]
  cases a <;> simp only [mat1] <;> push_cast <;> grind

theorem does_notGate {n q : ℕ} : Does n (xSpider q (.ofRat 1)) fun _ => app1 (mat1 0 1 1 0) q := by
  refine (does_x q (rat_inRange (by norm_num))).scale (k := 2) two_pos fun ρ ψ => ext1 q fun y a => ?_
  simp only [sl1_phase, sl1_app1, u_one]
  cases a <;> entries

theorem does_sx {n q : ℕ} : Does n (xSpider q (.ofRat (1 / 2))) fun _ =>
    app1 (mat1 ⟨1/2, 1/2⟩ ⟨1/2, -1/2⟩ ⟨1/2, -1/2⟩ ⟨1/2, 1/2⟩) q := by
  refine (does_x q (rat_inRange (by norm_num))).scale (k := 2) two_pos fun ρ ψ => ext1 q fun y a => ?_
  simp only [sl1_phase, sl1_app1, u_half, mk_I]
  cases a <;> entries

theorem does_sxdg {n q : ℕ} : Does n (xSpider q (.ofRat (-1 / 2))) fun _ =>
    app1 (mat1 ⟨1/2, -1/2⟩ ⟨1/2, 1/2⟩ ⟨1/2, 1/2⟩ ⟨1/2, -1/2⟩) q := by
  refine (does_x q (rat_inRange (by norm_num))).scale (k := 2) two_pos fun ρ ψ => ext1 q fun y a => ?_
  simp only [sl1_phase, sl1_app1, u_nhalf, mk_I]
  cases a <;> entries

/-- The diagram of the Y gate is minus the gate. -/
theorem does_y {n q : ℕ} : Does n (seq [gphase (Phase.ofRat (1 / 2)).neg, zSpider q (.ofRat 1), xSpider q (.ofRat 1)])
    fun _ ψ => phase (-1) (app1 (mat1 0 ⟨0, -1⟩ ⟨0, 1⟩ 0) q ψ) := by
  refine ((does_gphase _).cons ((does_z q (rat_inRange (by norm_num))).cons (does_x q (rat_inRange (by norm_num))).one)).scale
    (k := 2) two_pos fun ρ ψ => ext1 q fun y a => ?_
  simp only [sl1_phase, sl1_app1, u_one, Phase.u_neg, u_half, I_mk, negI_mk, Complex.inv_I]
  cases a <;> entries

theorem does_ry {n q : ℕ} {φ p : Phase} {un : Option ℝ} (hr : φ.const.InRange) {a : (ℕ → ℝ) → ℝ}
    (ha : ∀ ρ, φ.u ρ = E (a ρ)) (e : rotPhase φ un = .ok p) :
    Does n (ry φ q un) fun ρ ψ => phase (p.u ρ * E (a ρ / 2) * Complex.I) (app1 (ryMat (a ρ)) q ψ) := by
  have h1 : (Phase.ofRat 1).const.InRange := rat_inRange (by norm_num)
  have h2 : (Phase.ofRat (1 / 2)).const.InRange := rat_inRange (by norm_num)
  refine ((does_rot e).cons ((does_x q h2).cons ((does_z q (Phase.add_inRange hr h1)).cons ((does_x q h2).cons
    (does_z q h1).one)))).scale (k := 4) (by norm_num) fun ρ ψ => ext1 q fun y b => ?_
  simp only [sl1_phase, sl1_app1, u_one, u_half, Phase.u_add, ryMat]
  have hI := Complex.I_mul_I
  have h := E_ne (a ρ / 2)
  rw [ha, cos_E, ← E_half, show (⟨-Real.sin (a ρ / 2), 0⟩ : ℂ) = -⟨Real.sin (a ρ / 2), 0⟩ by apply Complex.ext <;> simp, sin_E']
  generalize E (a ρ / 2) = w at h
  have hw : w * w⁻¹ = 1 := mul_inv_cancel₀ h
  generalize w⁻¹ = v at hw
  cases b <;> simp only [mat1] <;> push_cast <;> grind

theorem does_u2 {n q : ℕ} {l f : Phase} (hl : l.const.InRange) (hf : f.const.InRange) {a b : (ℕ → ℝ) → ℝ}
    (ha : ∀ ρ, l.u ρ = E (a ρ)) (hb : ∀ ρ, f.u ρ = E (b ρ)) :
    Does n (seq [zSpider q (l.add (Phase.ofRat (1 / 2)).neg), xSpider q (.ofRat (1 / 2)), zSpider q (f.add (.ofRat (1 / 2)))])
      fun ρ ψ => phase ⟨r2, r2⟩ (app1 (u2Mat (a ρ) (b ρ)) q ψ) := by
  have h2 : (Phase.ofRat (1 / 2)).const.InRange := rat_inRange (by norm_num)
  refine ((does_z q (Phase.add_inRange hl (Phase.neg_inRange h2))).cons ((does_x q h2).cons
    (does_z q (Phase.add_inRange hf h2)).one)).scale (k := 2) two_pos fun ρ ψ => ext1 q fun y c => ?_
  have e1 : (⟨-Real.cos (a ρ) * r2, -Real.sin (a ρ) * r2⟩ : ℂ) = -(r2 * E (a ρ)) := by
    rw [E_eq]; apply Complex.ext <;> simp <;> ring
  have e2 : (⟨Real.cos (b ρ) * r2, Real.sin (b ρ) * r2⟩ : ℂ) = r2 * E (b ρ) := by
    rw [E_eq]; apply Complex.ext <;> simp <;> ring
  have e3 : (⟨Real.cos (a ρ + b ρ) * r2, Real.sin (a ρ + b ρ) * r2⟩ : ℂ) = r2 * (E (a ρ) * E (b ρ)) := by
    rw [← E_add, E_eq]; apply Complex.ext <;> simp <;> ring
  simp only [sl1_phase, sl1_app1, u_half, Phase.u_add, Phase.u_neg, u2Mat, e1, e2, e3, ha, hb, Complex.inv_I]
  have hI := Complex.I_mul_I
  have hs := r2_sqC
  rw [mk_I r2 r2, r2_mk]
  cases c <;> simp only [mat1] <;> push_cast <;> grind

theorem does_u {n q : ℕ} {l f θ : Phase} (hl : l.const.InRange) (hf : f.const.InRange) (hθ : θ.const.InRange)
    {a b c : (ℕ → ℝ) → ℝ} (ha : ∀ ρ, l.u ρ = E (a ρ)) (hb : ∀ ρ, f.u ρ = E (b ρ)) (hc : ∀ ρ, θ.u ρ = E (c ρ)) :
    Does n (seq [zSpider q l, xSpider q (.ofRat (1 / 2)), zSpider q (θ.add (.ofRat 1)), xSpider q (.ofRat (1 / 2)),
      zSpider q (f.add (.ofRat 3))])
      fun ρ ψ => phase (Complex.I * E (c ρ / 2)) (app1 (uMat (a ρ) (b ρ) (c ρ)) q ψ) := by
  have h1 : (Phase.ofRat 1).const.InRange := rat_inRange (by norm_num)
  have h3 : (Phase.ofRat 3).const.InRange := rat_inRange (by norm_num)
  have h2 : (Phase.ofRat (1 / 2)).const.InRange := rat_inRange (by norm_num)
  refine ((does_z q hl).cons ((does_x q h2).cons ((does_z q (Phase.add_inRange hθ h1)).cons ((does_x q h2).cons
    (does_z q (Phase.add_inRange hf h3)).one)))).scale (k := 4) (by norm_num) fun ρ ψ => ext1 q fun y d => ?_
  set s : ℝ := Real.sin (c ρ / 2) with hs
  set k : ℝ := Real.cos (c ρ / 2) with hk
  have e1 : (⟨-Real.cos (a ρ) * s, -Real.sin (a ρ) * s⟩ : ℂ) = -((⟨s, 0⟩ : ℂ) * E (a ρ)) := by
    rw [E_eq]; apply Complex.ext <;> simp <;> ring
  have e2 : (⟨Real.cos (b ρ) * s, Real.sin (b ρ) * s⟩ : ℂ) = (⟨s, 0⟩ : ℂ) * E (b ρ) := by
    rw [E_eq]; apply Complex.ext <;> simp <;> ring
  have e3 : (⟨Real.cos (a ρ + b ρ) * k, Real.sin (a ρ + b ρ) * k⟩ : ℂ) = (⟨k, 0⟩ : ℂ) * (E (a ρ) * E (b ρ)) := by
    rw [← E_add, E_eq]; apply Complex.ext <;> simp <;> ring
  simp only [sl1_phase, sl1_app1, u_half, u_one, u_three, Phase.u_add, uMat, ← hs, ← hk, e1, e2, e3, ha, hb, hc]
  rw [hs, hk, cos_E, sin_E', ← E_half (c ρ)]
  have hI := Complex.I_mul_I
  have h := E_ne (c ρ / 2)
  generalize E (c ρ / 2) = w at h
  have hw : w * w⁻¹ = 1 := mul_inv_cancel₀ h
  generalize w⁻¹ = v at hw
  cases d <;> simp only [mat1] <;> push_cast <;> grind

/-! ### Composite gates on two wires -/

theorem sl2_swap {q0 q1 : ℕ} (hne : q0 ≠ q1) (y : Bits) (ψ : State) (a b : Bool) :
    sl2 q0 q1 y (fun y => ψ (update (update y q0 (y q1)) q1 (y q0))) a b = sl2 q0 q1 y ψ b a := by
  simp only [sl2, Function.update_self, Function.update_of_ne hne, upd2 y a b hne]

theorem swap_app {q0 q1 : ℕ} (hne : q0 ≠ q1) (ψ : State) : (fun y => ψ (update (update y q0 (y q1)) q1 (y q0))) =
    app2 (mat2 1 0 0 0  0 0 1 0  0 1 0 0  0 0 0 1) q0 q1 ψ := by
  refine ext2 (q0 := q0) (q1 := q1) fun y a b => ?_
  rw [sl2_swap hne, sl2_app2 y _ a b hne]
  cases a <;> cases b <;> entries

theorem does_swapGate {n q0 q1 : ℕ} (hne : q0 ≠ q1) :
    Does n (swap q0 q1) fun _ => app2 (mat2 1 0 0 0  0 0 1 0  0 1 0 0  0 0 0 1) q0 q1 :=
  (does_swap hne).congr fun _ ψ => swap_app hne ψ

theorem cx_app {c t : ℕ} (hne : c ≠ t) (ψ : State) : cxState c t ψ = ctl {(c, true)} (app1 (mat1 0 1 1 0) t) ψ := by
  refine ext2 (q0 := c) (q1 := t) fun y a b => ?_
  rw [sl2_cx hne, sl2_ctl y _ a b hne, sl2_snd]
  cases a <;> cases b <;> entries

theorem does_dcx {n q0 q1 : ℕ} (hne : q0 ≠ q1) :
    Does n (dcx q0 q1) fun _ => app2 (mat2 1 0 0 0  0 0 1 0  0 0 0 1  0 1 0 0) q0 q1 := by
  refine ((does_cnot hne).cons (does_cnot hne.symm).one).congr fun ρ ψ => ext2 (q0 := q0) (q1 := q1) fun y a b => ?_
  rw [sl2_xc hne, sl2_cx hne, sl2_app2 y _ a b hne]
  cases a <;> cases b <;> entries

theorem does_iswap {n q0 q1 : ℕ} (hne : q0 ≠ q1) :
    Does n (seq [zSpider q0 (.ofRat (1 / 2)), zSpider q1 (.ofRat (1 / 2)), zSpider q0 .zero .hadamard, cnot q0 q1, cnot q1 q0,
      zSpider q1 .zero .hadamard]) fun _ => app2 (mat2 1 0 0 0  0 0 ⟨0, 1⟩ 0  0 ⟨0, 1⟩ 0 0  0 0 0 1) q0 q1 := by
  have h2 : (Phase.ofRat (1 / 2)).const.InRange := rat_inRange (by norm_num)
  refine ((does_z q0 h2).cons ((does_z q1 h2).cons ((does_h q0).cons ((does_cnot hne).cons ((does_cnot hne.symm).cons
    (does_h q1).one))))).scale (k := 2) two_pos fun ρ ψ => ext2 (q0 := q0) (q1 := q1) fun y a b => ?_
  have hI := Complex.I_mul_I
  simp only [sl2_phase, sl2_xc hne, sl2_cx hne, sl2_app2 y _ a b hne, sl2_fst _ _ _ _ hne, sl2_snd, u_half, I_mk]
  cases a <;> cases b <;>
    simp only [mat1, mat2, Bool.xor_false, Bool.xor_true, Bool.not_true, Bool.not_false] <;> push_cast <;> grind

theorem does_ryy {n q0 q1 : ℕ} {φ p : Phase} {un : Option ℝ} (hr : φ.const.InRange) {a : (ℕ → ℝ) → ℝ}
    (ha : ∀ ρ, φ.u ρ = E (a ρ)) (hne : q0 ≠ q1) (e : rotPhase φ un = .ok p) :
    Does n (seq [xSpider q0 (.ofRat (1 / 2)), xSpider q1 (.ofRat (1 / 2)), rzz φ q0 q1 un,
      xSpider q1 (Phase.ofRat (1 / 2)).neg, xSpider q0 (Phase.ofRat (1 / 2)).neg])
      fun ρ ψ => phase (p.u ρ * E (a ρ / 2)) (app2 (ryyMat (a ρ)) q0 q1 ψ) := by
  have h2 : (Phase.ofRat (1 / 2)).const.InRange := rat_inRange (by norm_num)
  have h3 := Phase.neg_inRange h2
  refine ((does_x q0 h2).cons ((does_x q1 h2).cons ((does_rzz hr ha hne e).cons ((does_x q1 h3).cons
    (does_x q0 h3).one)))).scale (k := 16) (by norm_num) fun ρ ψ => ext2 (q0 := q0) (q1 := q1) fun y b c => ?_
  have hI := Complex.I_mul_I
  simp only [sl2_phase, sl2_app2 _ _ _ _ hne, sl2_fst _ _ _ _ hne, sl2_snd, u_half, Phase.u_neg, Complex.inv_I, ryyMat, rzzMat]
  rw [mk_I (Real.cos _), mk_I (Real.cos _), mk_I (Real.cos _), mk_I 0, mk_I 0]
  push_cast
  generalize (Real.cos (a ρ / 2) : ℂ) = C
  generalize (Real.sin (a ρ / 2) : ℂ) = S
  generalize Phase.u ρ p * E (a ρ / 2) = W
  cases b <;> cases c <;>
    simp only [mat1, mat2, Bool.xor_false, Bool.xor_true, Bool.not_true, Bool.not_false] <;> grind

/-- Half of the angle of a controlled phase, as computed by `addCphase`. -/
theorem half_sq {φ h : Phase} {k : PiRational} (e1 : φ.half = .ok h) (e2 : φ.const.divInt 2 = .ok k) (ρ : ℕ → ℝ) :
    (Phase.u ρ ⟨h.sym, k⟩) * Phase.u ρ ⟨h.sym, k⟩ = φ.u ρ := by
  unfold Phase.half Param.conv at e1
  obtain ⟨c, -, e1⟩ := bind_ok e1
  injection e1 with e1
  subst e1
  unfold PiRational.divInt at e2
  rw [if_neg (by norm_num)] at e2
  injection e2 with e2
  subst e2
  obtain ⟨m, hm⟩ := Phase.cong_cast (PiRational.modPi_cong ⟨φ.const.frac / (2 : ℤ)⟩)
  unfold Phase.u Phase.rad
  simp only
  rw [hm, ← Complex.exp_add, Finsupp.sum_smul_index (fun _ => by ring)]
  have : ((φ.sym.sum fun v c => (1 / 2 : ℝ) * c * ρ v) : ℝ) = (1 / 2) * φ.sym.sum fun v c => c * ρ v := by
    rw [Finsupp.mul_sum]
    apply Finsupp.sum_congr
    intro v _
    ring
  rw [this]
  have h2 := Phase.exp_two_pi ((φ.sym.sum fun v c => c * ρ v) + φ.const.frac * Real.pi) (2 * m)
  rw [← h2]
  congr 1
  push_cast
  ring

theorem half_range {φ : Phase} (hφ : φ.const.InRange) {k : PiRational} (e2 : φ.const.divInt 2 = .ok k) : k.InRange := by
  unfold PiRational.divInt at e2
  rw [if_neg (by norm_num)] at e2
  injection e2 with e2
  subst e2
  refine (PiRational.modPi_range_iff _).2 ?_
  obtain ⟨h1, h2⟩ := hφ
  constructor
  · show (-3 : ℚ) < φ.const.frac / (2 : ℤ)
    push_cast; linarith
  · show φ.const.frac / (2 : ℤ) ≤ (3 : ℚ)
    push_cast; linarith

theorem does_cphase {n c t : ℕ} (hne : c ≠ t) {φ h : Phase} (hφ : φ.const.InRange) {k : PiRational} (e1 : φ.half = .ok h)
    (e2 : φ.const.divInt 2 = .ok k) :
    Does n (cphase φ c t) fun ρ => ctl {(c, true)} (app1 (mat1 1 0 0 (φ.u ρ)) t) := by
  have hr : (⟨h.sym, k⟩ : Phase).const.InRange := half_range hφ e2
  refine Does.of_eq (f := seq [zSpider c ⟨h.sym, k⟩, cnot c t, zSpider t (⟨h.sym, k⟩ : Phase).neg, cnot c t,
    zSpider t ⟨h.sym, k⟩]) ?_ ?_
  · refine ((does_z c hr).cons ((does_cnot hne).cons ((does_z t (Phase.neg_inRange hr)).cons ((does_cnot hne).cons
      (does_z t hr).one)))).congr fun ρ ψ => ext2 (q0 := c) (q1 := t) fun y a b => ?_
    have hs := half_sq e1 e2 ρ
    have h0 := Phase.u_ne_zero ρ ⟨h.sym, k⟩
    simp only [sl2_phase, sl2_cx hne, sl2_ctl y _ a b hne, sl2_fst _ _ _ _ hne, sl2_snd, Phase.u_neg]
    rw [← hs]
    generalize Phase.u ρ ⟨h.sym, k⟩ = w at h0
    have hw : w * w⁻¹ = 1 := mul_inv_cancel₀ h0
    generalize w⁻¹ = v at hw
    cases a <;> cases b <;>
      simp only [mat1, mat2, Bool.xor_false, Bool.xor_true, Bool.not_true, Bool.not_false, if_true, if_false,
        Bool.false_eq_true] <;> grind
  · intro b b' e
    unfold cphase at e
    rw [e1, e2] at e
    exact e

/-! ### Gates on three wires -/

section Three

variable {q0 q1 q2 : ℕ} (h01 : q0 ≠ q1) (h02 : q0 ≠ q2) (h12 : q1 ≠ q2) (y : Bits) (ψ : State) (a b c : Bool)

theorem sl3_eq : sl3 q0 q1 q2 y ψ a b c = sl2 q1 q2 (update y q0 a) ψ b c := rfl

include h01 h02 in
theorem upd3 (y : Bits) : update (update (update y q0 a) q1 b) q2 c = update (update (update y q1 b) q2 c) q0 a := by
  rw [Function.update_comm h01, Function.update_comm h02]

include h01 h02 in
theorem sl3_fst (M : Mat1) : sl3 q0 q1 q2 y (app1 M q0 ψ) a b c =
    M a true * sl3 q0 q1 q2 y ψ true b c + M a false * sl3 q0 q1 q2 y ψ false b c := by
  simp only [sl3, upd3 h01 h02]
  exact sl1_app1 q0 _ M ψ a

theorem sl3_snd (h12 : q1 ≠ q2) (M : Mat1) : sl3 q0 q1 q2 y (app1 M q1 ψ) a b c =
    M b true * sl3 q0 q1 q2 y ψ a true c + M b false * sl3 q0 q1 q2 y ψ a false c :=
  sl2_fst _ _ _ _ h12 M

theorem sl3_thd (M : Mat1) : sl3 q0 q1 q2 y (app1 M q2 ψ) a b c =
    M c true * sl3 q0 q1 q2 y ψ a b true + M c false * sl3 q0 q1 q2 y ψ a b false :=
  sl2_snd _ _ _ _ M

theorem sl3_phase (k : ℂ) : sl3 q0 q1 q2 y (phase k ψ) a b c = k * sl3 q0 q1 q2 y ψ a b c := rfl

theorem sl3_cx12 (h12 : q1 ≠ q2) : sl3 q0 q1 q2 y (cxState q1 q2 ψ) a b c = sl3 q0 q1 q2 y ψ a b (xor c b) :=
  sl2_cx h12 _ _ _ _

include h01 h02 in
theorem sl3_cx02 : sl3 q0 q1 q2 y (cxState q0 q2 ψ) a b c = sl3 q0 q1 q2 y ψ a b (xor c a) := by
  simp only [sl3, cxState, Function.update_self, Function.update_idem, Function.update_of_ne h02, Function.update_of_ne h01]

include h01 h02 in
theorem sl3_cx01 (h12 : q1 ≠ q2) : sl3 q0 q1 q2 y (cxState q0 q1 ψ) a b c = sl3 q0 q1 q2 y ψ a (xor b a) c := by
  simp only [sl3, cxState, Function.update_self, Function.update_of_ne h02, Function.update_of_ne h01, Function.update_of_ne h12]
  rw [Function.update_comm h12, Function.update_idem, Function.update_comm h12]

include h01 h02 in
theorem sl3_ctl (h12 : q1 ≠ q2) (A : State → State) : sl3 q0 q1 q2 y (ctl {(q0, true), (q1, true)} A ψ) a b c =
    if (a && b) = true then sl3 q0 q1 q2 y (A ψ) a b c else sl3 q0 q1 q2 y ψ a b c := by
  simp only [sl3, ctl, Sat]
  simp [Function.update_of_ne h01, Function.update_of_ne h02, Function.update_of_ne h12]

end Three

theorem does_ccx {n c0 c1 t : ℕ} (h01 : c0 ≠ c1) (h02 : c0 ≠ t) (h12 : c1 ≠ t) :
    Does n (ccx c0 c1 t) fun _ => ctl {(c0, true), (c1, true)} (app1 (mat1 0 1 1 0) t) := by
  have hq : (Phase.ofRat (1 / 4)).const.InRange := rat_inRange (by norm_num)
  have hn : (Phase.ofRat (-1 / 4)).const.InRange := rat_inRange (by norm_num)
  have h0 : Does n (zSpider t (.ofRat 0) .hadamard) fun _ => app1 (mat1 1 1 1 (-1)) t := by
    have := does_spider (n := n) (c := .z) (by decide) t (rat_inRange (q := 0) (by norm_num)) .hadamard
    simp only [hMat, u_rat0] at this
    exact this
  refine ((does_h t).cons ((does_cnot h12).cons ((does_z t hn).cons ((does_cnot h02).cons ((does_z t hq).cons
    ((does_cnot h12).cons ((does_z c1 hq).cons ((does_z t hn).cons ((does_cnot h02).cons ((does_z t hq).cons
    ((does_cnot h01).cons ((does_z c0 hq).cons ((does_z c1 hn).cons (h0.cons (does_cnot h01).one)))))))))))))).scale (k := 2)
    two_pos fun ρ ψ => ext3 (q0 := c0) (q1 := c1) (q2 := t) fun y a b c => ?_
  simp only [sl3_phase, sl3_fst h01 h02, sl3_snd _ _ _ _ _ h12, sl3_thd, sl3_cx12 _ _ _ _ _ h12, sl3_cx02 h01 h02,
    sl3_cx01 h01 h02 _ _ _ _ _ h12, sl3_ctl h01 h02 _ _ _ _ _ h12, u_quarter, u_nquarter, mk_I]
  have hI := Complex.I_mul_I
  have hs := r2_sqC
  push_cast
  generalize (r2 : ℂ) = s at hs
  have hw : (s + s * Complex.I) * (s + -s * Complex.I) = 1 := by linear_combination (1 - Complex.I * Complex.I) * hs - hI / 2
  have hw4 : (s + s * Complex.I) * (s + s * Complex.I) * ((s + s * Complex.I) * (s + s * Complex.I)) = -1 := by grind
  generalize s + s * Complex.I = w at hw hw4
  generalize s + -s * Complex.I = v at hw
  cases a <;> cases b <;> cases c <;>
    simp only [mat1, Bool.xor_false, Bool.xor_true, Bool.not_true, Bool.not_false, if_true, if_false,
        Bool.false_eq_true, Bool.and_true, Bool.and_false, Bool.true_and, Bool.false_and] <;> grind

theorem does_ccz {n c0 c1 t : ℕ} (h01 : c0 ≠ c1) (h02 : c0 ≠ t) (h12 : c1 ≠ t) :
    Does n (seq [zSpider t .zero .hadamard, ccx c0 c1 t, zSpider t .zero .hadamard]) fun _ =>
      ctl {(c0, true), (c1, true)} (app1 (mat1 1 0 0 (-1)) t) := by
  refine ((does_h t).cons ((does_ccx h01 h02 h12).cons (does_h t).one)).scale (k := 2) two_pos fun ρ ψ =>
    ext3 (q0 := c0) (q1 := c1) (q2 := t) fun y a b c => ?_
  simp only [sl3_phase, sl3_thd, sl3_ctl h01 h02 _ _ _ _ _ h12]
  cases a <;> cases b <;> cases c <;>
    simp only [mat1, if_true, if_false, Bool.false_eq_true, Bool.and_true, Bool.and_false, Bool.true_and, Bool.false_and] <;>
    push_cast <;> ring

end Build

end MQT.ZX
