import Verif.IR.ParseU
import Mathlib.Analysis.SpecialFunctions.Complex.Circle
import Mathlib.Analysis.SpecialFunctions.Trigonometric.Bounds

/-! C21: canonicalisation of `u1`/`u2`/`u3` gates. -/

set_option autoImplicit false

namespace MQT.IR.ParseU

open Real OpType

/-! ### Distance of rotation matrices -/

theorem norm_exp_sub (a b : ℝ) :
    ‖(⟨cos a, sin a⟩ : ℂ) - ⟨cos b, sin b⟩‖ ≤ |a - b| := by
  have e : ∀ θ : ℝ, (⟨cos θ, sin θ⟩ : ℂ) = Complex.exp (Complex.I * θ) := by
    intro θ
    rw [mul_comm]
    apply Complex.ext
    · simp [Complex.exp_ofReal_mul_I_re]
    · simp [Complex.exp_ofReal_mul_I_im]
  have h : Complex.exp (Complex.I * a) - Complex.exp (Complex.I * b) =
      Complex.exp (Complex.I * b) * (Complex.exp (Complex.I * (a - b : ℝ)) - 1) := by
    rw [mul_sub, ← Complex.exp_add, mul_one]
    congr 2
    push_cast; ring
  rw [e, e, h, norm_mul, mul_comm Complex.I (b : ℂ), Complex.norm_exp_ofReal_mul_I, one_mul]
  exact Real.norm_exp_I_mul_ofReal_sub_one_le

theorem cos_lip (a b : ℝ) : |cos a - cos b| ≤ |a - b| := by
  have h := Complex.abs_re_le_norm ((⟨cos a, sin a⟩ : ℂ) - ⟨cos b, sin b⟩)
  simp only [Complex.sub_re] at h
  exact h.trans (norm_exp_sub a b)

theorem sin_lip (a b : ℝ) : |sin a - sin b| ≤ |a - b| := by
  have h := Complex.abs_im_le_norm ((⟨cos a, sin a⟩ : ℂ) - ⟨cos b, sin b⟩)
  simp only [Complex.sub_im] at h
  exact h.trans (norm_exp_sub a b)

theorem polar_dist (a b r r' : ℝ) (hr : |r| ≤ 1) :
    ‖(⟨cos a * r, sin a * r⟩ : ℂ) - ⟨cos b * r', sin b * r'⟩‖ ≤ |a - b| + |r - r'| := by
  have e : (⟨cos a * r, sin a * r⟩ : ℂ) - ⟨cos b * r', sin b * r'⟩ =
      ((⟨cos a, sin a⟩ : ℂ) - ⟨cos b, sin b⟩) * (r : ℂ) + ⟨cos b, sin b⟩ * ((r - r' : ℝ) : ℂ) := by
    apply Complex.ext <;> simp <;> ring
  rw [e]
  refine (norm_add_le _ _).trans ?_
  rw [norm_mul, norm_mul, Complex.norm_real, Complex.norm_real, Real.norm_eq_abs, Real.norm_eq_abs]
  have h1 : ‖(⟨cos b, sin b⟩ : ℂ)‖ = 1 := by
    have : (⟨cos b, sin b⟩ : ℂ) = Complex.exp (b * Complex.I) := by
      apply Complex.ext
      · simp [Complex.exp_ofReal_mul_I_re]
      · simp [Complex.exp_ofReal_mul_I_im]
    rw [this, Complex.norm_exp_ofReal_mul_I]
  have h2 := norm_exp_sub a b
  have h3 := mul_le_mul h2 hr (abs_nonneg r) (abs_nonneg _)
  rw [h1, one_mul]
  linarith

/-- Entries of two `U` matrices differ by at most the sum of the angle differences. -/
theorem uMat_dist (l f a l' f' a' : ℝ) (r c : Bool) :
    ‖uMat l f a r c - uMat l' f' a' r c‖ ≤ |l - l'| + |f - f'| + |a - a'| := by
  have hc := cos_lip (a / 2) (a' / 2)
  have hs := sin_lip (a / 2) (a' / 2)
  have ha : |a / 2 - a' / 2| ≤ |a - a'| := by
    rw [← sub_div, abs_div, abs_two]
    have := abs_nonneg (a - a'); linarith
  have n1 := abs_nonneg (l - l')
  have n2 := abs_nonneg (f - f')
  have n3 := abs_nonneg (a - a')
  cases r <;> cases c <;> simp only [uMat, mat1]
  · have e : (⟨cos (a / 2), 0⟩ : ℂ) - ⟨cos (a' / 2), 0⟩ = ((cos (a / 2) - cos (a' / 2) : ℝ) : ℂ) := by
      apply Complex.ext <;> simp [-Complex.ofReal_sub, -Complex.ofReal_cos]
    rw [e, Complex.norm_real, Real.norm_eq_abs]; linarith
  · have e : (⟨-cos l * sin (a / 2), -sin l * sin (a / 2)⟩ : ℂ) -
        ⟨-cos l' * sin (a' / 2), -sin l' * sin (a' / 2)⟩ =
        -((⟨cos l * sin (a / 2), sin l * sin (a / 2)⟩ : ℂ) -
          ⟨cos l' * sin (a' / 2), sin l' * sin (a' / 2)⟩) := by
      apply Complex.ext <;> simp <;> ring
    rw [e, norm_neg]
    have := polar_dist l l' (sin (a / 2)) (sin (a' / 2)) (Real.abs_sin_le_one _)
    linarith
  · have := polar_dist f f' (sin (a / 2)) (sin (a' / 2)) (Real.abs_sin_le_one _)
    linarith
  · have := polar_dist (l + f) (l' + f') (cos (a / 2)) (cos (a' / 2)) (Real.abs_cos_le_one _)
    have h2 : |l + f - (l' + f')| ≤ |l - l'| + |f - f'| := by
      rw [show l + f - (l' + f') = (l - l') + (f - f') by ring]; exact abs_add_le _ _
    linarith

/-! ### C21 -/

/-- **C21.** Whatever gate `checkUgate` stores in place of a requested `u1`, `u2` or `u3` gate has
a matrix, and every entry of that matrix is within `39·tol` of the entry of the requested matrix.
(`tol` is the library's parameter tolerance `1e-13`, `nr` the rounding function.) -/
theorem c21_canonical_gate (tol : ℝ) (nr : ℝ → ℤ) (ht : 0 ≤ tol) (ht2 : tol ≤ 1 / 2)
    (ty ty' : OpType) (ps ps' : List ℝ) (M : Mat1)
    (hty : ty = p ∨ ty = u2 ∨ ty = u) (hM : gate1 ty ps = some M)
    (h : checkUgate tol nr ty ps = some (ty', ps')) :
    ∃ N, gate1 ty' ps' = some N ∧ ∀ r c, ‖N r c - M r c‖ ≤ 39 * tol := by
  unfold checkUgate at h
  split at h
  · rename_i he
    rw [List.isEmpty_iff] at he
    subst he
    rcases hty with rfl | rfl | rfl <;> cases hM
  · rcases hty with rfl | rfl | rfl
    · rcases ps with _ | ⟨l, _ | ⟨b, r⟩⟩
      · simp at *
      · simp only at h
        obtain ⟨l', h1, h2⟩ := parseU1_spec ht ht2 h
        simp only [gate1, List.getElem?_cons_zero, Option.map_some, Option.some.injEq] at hM
        subst hM
        refine ⟨_, h2, fun r c => ?_⟩
        have := uMat_dist l' 0 0 l 0 0 r c
        rw [uMat_zero, uMat_zero] at this
        refine this.trans ?_
        simp only [Within] at h1
        simp; linarith
      · cases h
    · rcases ps with _ | ⟨f, _ | ⟨l, _ | ⟨b, r⟩⟩⟩
      · simp at *
      · cases h
      · simp only at h
        obtain ⟨f', l', h1, h1', h2⟩ := parseU2_spec ht ht2 h
        simp only [gate1, List.getElem?_cons_zero, List.getElem?_cons_succ,
          Option.some.injEq] at hM
        subst hM
        refine ⟨_, h2, fun r c => ?_⟩
        have := uMat_dist l' f' (π / 2) l f (π / 2) r c
        rw [uMat_half, uMat_half] at this
        refine this.trans ?_
        simp only [Within] at h1 h1'
        simp; linarith
      · cases h
    · rcases ps with _ | ⟨a, _ | ⟨f, _ | ⟨l, _ | ⟨b, r⟩⟩⟩⟩
      · simp at *
      · cases h
      · cases h
      · simp only at h
        obtain ⟨a', f', l', h1, h1', h1'', h2⟩ := parseU3_spec ht ht2 h
        simp only [gate1, List.getElem?_cons_zero, List.getElem?_cons_succ,
          Option.some.injEq] at hM
        subst hM
        refine ⟨_, h2, fun r c => ?_⟩
        refine (uMat_dist l' f' a' l f a r c).trans ?_
        simp only [Within] at h1 h1' h1''
        linarith
      · cases h

/-- **C21.** Types other than `u1`/`u2`/`u3` are stored as requested. -/
theorem c21_other_types_untouched (tol : ℝ) (nr : ℝ → ℤ) (ty : OpType) (ps : List ℝ)
    (h1 : ty ≠ p) (h2 : ty ≠ u2) (h3 : ty ≠ u) : checkUgate tol nr ty ps = some (ty, ps) := by
  unfold checkUgate
  split
  · rfl
  · revert h1 h2 h3
    cases ty <;> intro h1 h2 h3 <;> first | rfl | exact absurd rfl h1 | exact absurd rfl h2 | exact absurd rfl h3

/-- **C21.** Special angles that match a rule exactly give exactly the named gate. -/
theorem c21_exact_rules (tol : ℝ) (nr : ℝ → ℤ) (h0 : 0 < tol) (h1 : tol < 1 / 10) :
    checkUgate tol nr p [π] = some (z, []) ∧ checkUgate tol nr p [-(π / 2)] = some (sdg, []) ∧
    checkUgate tol nr p [π / 4] = some (t, []) ∧
    checkUgate tol nr u2 [0, π] = some (h, []) ∧
    checkUgate tol nr u [π, 0, π] = some (x, []) ∧
    checkUgate tol nr u [π, π / 2, π / 2] = some (y, []) ∧
    checkUgate tol nr u [π / 2, -(π / 2), π / 2] = some (v, []) := by
  have hp := Real.two_le_pi
  have e0 : ∀ a : ℝ, Near tol a a := fun a => by simp [Near, h0]
  have far : ∀ a b : ℝ, 1 / 10 ≤ |a - b| → ¬ Near tol a b := fun a b h => by
    unfold Near; linarith
  have pos : ∀ a b : ℝ, 1 / 10 ≤ a - b → ¬ Near tol a b := fun a b h =>
    far a b (h.trans (le_abs_self _))
  have neg : ∀ a b : ℝ, 1 / 10 ≤ b - a → ¬ Near tol a b := fun a b h =>
    far a b (by rw [abs_sub_comm]; exact h.trans (le_abs_self _))
  have n1 : ¬ Near tol π 0 := pos _ _ (by linarith)
  have n2 : ¬ Near tol (-(π / 2)) 0 := neg _ _ (by linarith)
  have n3 : ¬ Near tol (π / 2) π := neg _ _ (by linarith)
  have n4 : ¬ Near tol (π / 4) 0 := pos _ _ (by linarith)
  have n5 : ¬ Near tol (π / 4) π := neg _ _ (by linarith)
  have n6 : ¬ Near tol (π / 4) (π / 2) := neg _ _ (by linarith)
  have n7 : ¬ Near tol π (π / 2) := pos _ _ (by linarith)
  have n8 : ¬ Near tol π (-(π / 2)) := pos _ _ (by linarith)
  have n9 : ¬ Near tol (π / 2) 0 := pos _ _ (by linarith)
  have n10 : ¬ Near tol (π / 2) (-(π / 2)) := pos _ _ (by linarith)
  have a1 : |π| = π := abs_of_pos Real.pi_pos
  have a2 : |-(π / 2)| = π / 2 := by rw [abs_neg, abs_of_pos (by linarith)]
  have a3 : |π / 4| = π / 4 := abs_of_pos (by linarith)
  have a4 : |π / 2| = π / 2 := abs_of_pos (by linarith)
  have l1 : -(π / 2) < 0 := by linarith
  have l2 : ¬ π / 4 < 0 := by linarith
  refine ⟨?_, ?_, ?_, ?_, ?_, ?_, ?_⟩ <;>
    simp [checkUgate, parseU1, parseU2, parseU3, clamp, e0, n1, n2, n3, n4, n5, n6, n7, n8, n9,
      n10, a1, a2, a3, a4, l1, l2]

theorem fix_isSome {tol : ℝ} {nr : ℝ → ℤ} (h0 : 0 < tol) {a : ℝ} (ha : |a| + tol ≤ π / tol) :
    (fix tol nr a).isSome = true := by
  have hw := checkInteger_within (tol := tol) (nr := nr) h0.le a
  unfold fix checkFractionPi
  generalize checkInteger tol nr a = b at *
  have hb : |b| ≤ π / tol := by
    have h1 : |b| ≤ |b - a| + |a| := by
      have := abs_add_le (b - a) a; rwa [sub_add_cancel] at this
    unfold Within at hw
    linarith
  split_ifs with c1 c2 c3
  · rfl
  · exfalso
    unfold Near at c2
    rw [c3] at c2
    simp only [Int.cast_zero, sub_zero] at c2
    have hbp : 0 < |b| := abs_pos.2 c1
    rw [abs_div, abs_of_pos Real.pi_pos, div_lt_iff₀ hbp] at c2
    rw [le_div_iff₀ h0] at hb
    linarith
  · rfl
  · rfl

/-- **C21.** Canonicalisation always yields a gate (no infinite angle, no failed assertion) when
the number of parameters is right and the angles are below `π / tol - tol` (about `3·10^13`). -/
theorem c21_always_a_gate (tol : ℝ) (nr : ℝ → ℤ) (h0 : 0 < tol) (h1 : tol ≤ 1 / 2)
    (ty : OpType) (ps : List ℝ) (hps : ∀ a ∈ ps, |a| + tol ≤ π / tol)
    (hn : (ty = p → ps.length = 1) ∧ (ty = u2 → ps.length = 2) ∧ (ty = u → ps.length = 3)) :
    (checkUgate tol nr ty ps).isSome = true := by
  have hpi := Real.two_le_pi
  have hpt : 2 * π ≤ π / tol := by
    rw [le_div_iff₀ h0]
    have := mul_le_mul_of_nonneg_left h1 (show 0 ≤ 2 * π by linarith)
    linarith
  have hcl : ∀ {P : Prop} [Decidable P] {v a : ℝ}, |v| + tol ≤ π / tol → |a| + tol ≤ π / tol →
      |clamp P v a| + tol ≤ π / tol := by
    intro P _ v a hv ha; unfold clamp; split_ifs <;> assumption
  have z0 : |(0 : ℝ)| + tol ≤ π / tol := by rw [abs_zero]; linarith
  have z1 : |π| + tol ≤ π / tol := by rw [abs_of_pos Real.pi_pos]; linarith
  have z2 : |π / 2| + tol ≤ π / tol := by rw [abs_of_pos (by linarith)]; linarith
  have z3 : |-(π / 2)| + tol ≤ π / tol := by rw [abs_neg, abs_of_pos (by linarith)]; linarith
  have g1 : ∀ l : ℝ, |l| + tol ≤ π / tol → (parseU1 tol nr l).isSome = true := by
    intro l hl
    unfold parseU1
    split_ifs <;> first | rfl | (rw [Option.isSome_map]; exact fix_isSome h0 hl)
  have g2 : ∀ f l : ℝ, |f| + tol ≤ π / tol → |l| + tol ≤ π / tol →
      (parseU2 tol nr f l).isSome = true := by
    intro f l hf hl
    unfold parseU2
    dsimp only
    split_ifs <;> try rfl
    obtain ⟨x1, e1⟩ := Option.isSome_iff_exists.1
      (fix_isSome (nr := nr) h0 (hcl (P := Near tol (clamp (Near tol l (π / 2)) (π / 2) l) (-(π / 2)))
        z3 (hcl (P := Near tol l (π / 2)) z2 hl)))
    obtain ⟨x2, e2⟩ := Option.isSome_iff_exists.1
      (fix_isSome (nr := nr) h0 (hcl (P := Near tol f 0) z0 hf))
    rw [e1, e2]; rfl
  rcases hn with ⟨n1, n2, n3⟩
  unfold checkUgate
  split
  · rfl
  · by_cases t1 : ty = p
    · subst t1
      obtain ⟨l, rfl⟩ := List.length_eq_one_iff.1 (n1 rfl)
      exact g1 l (hps l (by simp))
    by_cases t2 : ty = u2
    · subst t2
      obtain ⟨f, l, rfl⟩ := List.length_eq_two.1 (n2 rfl)
      exact g2 f l (hps f (by simp)) (hps l (by simp))
    by_cases t3 : ty = u
    · subst t3
      obtain ⟨a, f, l, rfl⟩ := List.length_eq_three.1 (n3 rfl)
      have ha := hps a (by simp)
      have hf := hps f (by simp)
      have hl := hps l (by simp)
      simp only
      unfold parseU3
      dsimp only
      split_ifs <;> try first
        | rfl
        | exact g1 l hl
        | exact g2 f l hf hl
        | (rw [Option.isSome_map]; exact fix_isSome h0 ha)
      split
      · rfl
      · rename_i hno
        exfalso
        refine hno _ _ _ (Option.some_get ?_).symm (Option.some_get ?_).symm
          (Option.some_get ?_).symm
        · exact fix_isSome h0 (hcl z1 (hcl z3 (hcl z2 (hcl z0 hl))))
        · exact fix_isSome h0 (hcl z0 (hcl z2 hf))
        · exact fix_isSome h0 ha
    · revert t1 t2 t3
      cases ty <;> intro t1 t2 t3 <;>
        first | rfl | exact absurd rfl t1 | exact absurd rfl t2 | exact absurd rfl t3

/-- **C21 (violated far out).** An angle so large that `π / angle` is within the tolerance of `0`
is replaced by `π / 0`, an infinite angle, whenever rounding is correct there. -/
theorem c21_huge_angle_lost (tol : ℝ) (nr : ℝ → ℤ) (h0 : 0 < tol) (a : ℝ)
    (ha : π / tol < |a|) (hn : nr (π / a) = 0) : checkFractionPi tol nr a = Option.none := by
  have hane : a ≠ 0 := by
    rintro rfl
    have : 0 < π / tol := div_pos Real.pi_pos h0
    simp at ha; linarith
  have hapos : 0 < |a| := abs_pos.2 hane
  have hnear : Near tol (π / a) (nr (π / a)) := by
    unfold Near
    rw [hn]; simp only [Int.cast_zero, sub_zero]
    rw [abs_div, abs_of_pos Real.pi_pos, div_lt_iff₀ hapos]
    rw [div_lt_iff₀ h0] at ha
    linarith
  unfold checkFractionPi
  rw [if_neg hane, if_pos hnear, if_pos hn]

end MQT.IR.ParseU
