/-
C55: state preparation.
-/
import Verif.Alg.StatePrep

set_option autoImplicit false

noncomputable section

open Classical

namespace MQT.Alg

open MQT.IR MQT.Opt MQT.Sim

theorem twoNormC_eq (len : ℕ) (v : ℕ → ℂ) : twoNormC len v = √(∑ j ∈ Finset.range len, ‖v j‖ ^ 2) := by
  unfold twoNormC
  simp only [Complex.normSq_eq_norm_sq]

theorem pow_and_pred (n : ℕ) : 2 ^ n &&& (2 ^ n - 1) = 0 := by
  rw [Nat.and_two_pow_sub_one_eq_mod, Nat.mod_self]

theorem create_eq (eps : ℝ) (n : ℕ) (v : List ℂ) (hv : v.length = 2 ^ n)
    (h : |1 - twoNormC v.length (fun i => v.getD i 0)| < eps) :
    createStatePreparation eps v = match (gatesToUncompute eps n fun i => v.getD i 0).invert with
      | some c => .ok c
      | none => .throw := by
  have hne : v ≠ [] := by
    intro h'; rw [h'] at hv; exact absurd hv.symm (Nat.two_pow_pos n).ne'
  unfold createStatePreparation
  have hp : ¬ (v = [] ∨ v.length &&& (v.length - 1) ≠ 0) := by
    rw [hv, pow_and_pred]
    simp [hne]
  rw [if_neg (not_not.2 h), if_neg hp, hv, Nat.log2_two_pow]
  rfl

/-- **C55.** A circuit returned for `2^n` amplitudes prepares exactly the normalised amplitudes (bit `k` of
the index is qubit `k`), including the global phase, provided every quantity the code compares with its
tolerance is zero or above it. -/
theorem c55_clear (eps : ℝ) (n : ℕ) (v : List ℂ) (hv : v.length = 2 ^ n) (he : eps ≤ 1)
    (hn : |1 - twoNormC v.length (fun i => v.getD i 0)| < eps) (hc : ClearAll eps n fun i => v.getD i 0) :
    ∃ c F, createStatePreparation eps v = .ok c ∧ c.denote = some F ∧
      F (ket0 n) = fun x => v.getD (num 0 n x) 0 / (twoNormC v.length (fun i => v.getD i 0) : ℝ) := by
  have h0 : 0 ≤ eps := (abs_nonneg _).trans hn.le
  have hpos : 0 < twoNormC v.length (fun i => v.getD i 0) := by
    have := abs_lt.1 hn; linarith
  rw [hv, twoNormC_eq] at hpos
  obtain ⟨c, F, h1, h2, h3⟩ := prepare_spec eps h0 n _ hc (Real.sqrt_pos.1 hpos).ne'
  refine ⟨c, F, ?_, h2, ?_⟩
  · rw [create_eq eps n v hv hn, h1]
  · rw [h3, hv, twoNormC_eq]

/-- **C55.** For every normalised vector of length `2^n`, all small enough tolerances give a circuit that
prepares exactly this vector.
Missing from C55: tolerance 0, with which every vector is rejected (`c55_zero_tolerance`), so the tolerance has to be positive. -/
theorem c55_prepares_partial (n : ℕ) (v : List ℂ) (hv : v.length = 2 ^ n)
    (hn : ∑ j ∈ Finset.range v.length, ‖v.getD j 0‖ ^ 2 = 1) :
    ∃ e0 > 0, ∀ eps, 0 < eps → eps < e0 → ∃ c F, createStatePreparation eps v = .ok c ∧ c.denote = some F ∧
      F (ket0 n) = fun x => v.getD (num 0 n x) 0 := by
  obtain ⟨e0, h0, hcl⟩ := ClearAll.eventually n fun i => v.getD i 0
  have hN : twoNormC v.length (fun i => v.getD i 0) = 1 := by rw [twoNormC_eq, hn, Real.sqrt_one]
  refine ⟨min e0 1, lt_min h0 one_pos, fun eps hp he => ?_⟩
  obtain ⟨c, F, h1, h2, h3⟩ := c55_clear eps n v hv (he.le.trans (min_le_right _ _))
    (by rw [hN]; simpa using hp) (hcl eps hp.le (lt_of_lt_of_le he (min_le_left _ _)))
  exact ⟨c, F, h1, h2, by rw [h3, hN]; simp⟩

/-- **C55.** Exactly the vectors that are normalised (up to the tolerance) and whose length is a power of two
are accepted. -/
theorem c55_accepts_iff (eps : ℝ) (v : List ℂ) : (∃ c, createStatePreparation eps v = .ok c) ↔
    |1 - twoNormC v.length (fun i => v.getD i 0)| < eps ∧ ∃ n, v.length = 2 ^ n := by
  constructor
  · rintro ⟨c, h⟩
    unfold createStatePreparation at h
    split_ifs at h with h1 h2
    refine ⟨h1, ?_⟩
    obtain ⟨hne, ha⟩ := not_or.1 h2
    have hpos : v.length ≠ 0 := fun h' => hne (List.length_eq_zero_iff.1 h')
    exact (Nat.and_sub_one_eq_zero_iff_isPowerOfTwo hpos).1 (not_not.1 ha)
  · rintro ⟨h, n, hv⟩
    rw [create_eq eps n v hv h]
    obtain ⟨l, hl⟩ := uncompute_inv eps n 0 fun i => v.getD i 0
    have : ∃ c, (gatesToUncompute eps n fun i => v.getD i 0).invert = some c := by
      unfold QC.invert
      have : (gatesToUncompute eps n fun i => v.getD i 0).ops = (uncompute eps n 0 fun i => v.getD i 0).1 := rfl
      rw [this, hl]
      exact ⟨_, rfl⟩
    obtain ⟨c, hc⟩ := this
    exact ⟨c, by rw [hc]⟩

/-- With tolerance zero every vector is rejected. -/
theorem c55_zero_tolerance (v : List ℂ) : createStatePreparation 0 v = .throw := by
  unfold createStatePreparation
  rw [if_pos (not_lt.2 (abs_nonneg _))]

/-- A tolerance above one leaves the register at zero, whatever the amplitudes: the tolerance matters. -/
theorem c55_large_tolerance : ∃ c F, createStatePreparation 4 [0, 1] = .ok c ∧ c.denote = some F ∧
    F (ket0 1) = ket0 1 := by
  have hf : (fun i => ([0, 1] : List ℂ).getD i 0) 0 = 0 ∧ (fun i => ([0, 1] : List ℂ).getD i 0) 1 = 1 := ⟨rfl, rfl⟩
  have hb : blochAngles 4 0 1 = (1, 0, 0) := by
    unfold blochAngles
    norm_num [cis_zero]
  have hph : twoNormR (2 ^ 0) (phis 4 fun i => ([0, 1] : List ℂ).getD i 0) = 0 := by
    simp [twoNormR, phis, hb]
  have hth : twoNormR (2 ^ 0) (thetas 4 fun i => ([0, 1] : List ℂ).getD i 0) = 0 := by
    simp [twoNormR, thetas, hb]
  have hu : uncompute 4 1 0 (fun i => ([0, 1] : List ℂ).getD i 0)
      = ([], remaining 4 fun i => ([0, 1] : List ℂ).getD i 0) := by
    simp only [uncompute, disentangle]
    rw [hph, hth]
    norm_num
  have hr : remaining 4 (fun i => ([0, 1] : List ℂ).getD i 0) 0 = 1 := by simp [remaining, hb]
  refine ⟨⟨[], 0, [(0, 0)], [(0, 0)]⟩, fun ψ => ψ, ?_, ?_, rfl⟩
  · rw [create_eq 4 1 [0, 1] rfl (by
      rw [twoNormC]
      norm_num [Finset.sum_range_succ])]
    have : gatesToUncompute 4 1 (fun i => ([0, 1] : List ℂ).getD i 0) = ⟨[], 0, [(0, 0)], [(0, 0)]⟩ := by
      unfold gatesToUncompute
      rw [hu]
      simp only [hr, Complex.arg_one, abs_zero]
      norm_num
    rw [this]
    rfl
  · have e : permOf [(0, 0)] = id := permOf_id 1
    unfold QC.denote
    simp only [e, invFun_id', Real.cos_zero, Real.sin_zero]
    show some _ = some _
    congr 1
    funext ψ y
    have : (⟨1, 0⟩ : ℂ) = 1 := rfl
    simp [this]

/-- `(3|00⟩ + 4i|11⟩)/5` is prepared. -/
example : ∃ e0 > 0, ∀ eps, 0 < eps → eps < e0 → ∃ c F,
    createStatePreparation eps [3 / 5, 0, 0, 4 / 5 * Complex.I] = .ok c ∧ c.denote = some F ∧
      F (ket0 2) (fun _ => true) = 4 / 5 * Complex.I ∧ F (ket0 2) (fun q => q == 0) = 0 := by
  obtain ⟨e0, h0, h⟩ := c55_prepares_partial 2 [3 / 5, 0, 0, 4 / 5 * Complex.I] rfl (by
    norm_num [Finset.sum_range_succ])
  refine ⟨e0, h0, fun eps h1 h2 => ?_⟩
  obtain ⟨c, F, a, b, d⟩ := h eps h1 h2
  refine ⟨c, F, a, b, ?_, ?_⟩
  · rw [d]; simp [num, bitv, Finset.sum_range_succ]
  · rw [d]
    show ([3 / 5, 0, 0, 4 / 5 * Complex.I] : List ℂ).getD (num 0 2 fun q => q == 0) 0 = 0
    have : num 0 2 (fun q => q == 0) = 1 := by decide
    rw [this]; rfl

/-- Three amplitudes are rejected. -/
example (eps : ℝ) : ¬ ∃ c, createStatePreparation eps [1, 0, 0] = .ok c := by
  rw [c55_accepts_iff]
  rintro ⟨-, n, hn⟩
  have h3 : 3 = 2 ^ n := hn
  rcases n with _ | _ | n
  · omega
  · omega
  · rw [pow_succ, pow_succ] at h3; omega

end MQT.Alg
