/-
Canonicalisation of `u1`/`u2`/`u3` gates when a `StandardOperation` is constructed.

Sources: `src/ir/operations/StandardOperation.cpp` 36-105 (`parseU3`), 107-142 (`parseU2`),
144-170 (`parseU1`), 172-186 (`checkUgate`);
`include/mqt-core/ir/operations/StandardOperation.hpp` 34-47 (`checkInteger`, `checkFractionPi`).

Simplifications: `fp` is `ℝ`; `PARAMETER_TOLERANCE` is a parameter `tol`; `std::nearbyint` is an
arbitrary function `nr : ℝ → ℤ` (the results hold whatever it returns).  Division by zero in
`checkFractionPi` is explicit: `π / 0` is an infinity in C++ whose nearest integer is infinite and
the comparison with NaN fails, so a zero argument is left unchanged; a nearest integer `0` stores
an infinite parameter, which the model reports as `none`.
-/
import Verif.IR.StdOp

set_option autoImplicit false
set_option linter.unusedTactic false
set_option linter.unreachableTactic false

namespace MQT.IR.ParseU

open Real OpType

variable (tol : ℝ) (nr : ℝ → ℤ)

/-- `std::abs(a - b) < PARAMETER_TOLERANCE`. -/
def Near (a b : ℝ) : Prop := |a - b| < tol

noncomputable instance (a b : ℝ) : Decidable (Near tol a b) := Classical.propDecidable _

/-- `if (c) { a = v; }`. -/
noncomputable def clamp (c : Prop) [Decidable c] (v a : ℝ) : ℝ := if c then v else a

/-- `checkInteger` (StandardOperation.hpp 34-39). -/
noncomputable def checkInteger (a : ℝ) : ℝ := if Near tol a (nr a) then (nr a : ℝ) else a

/-- `checkFractionPi` (StandardOperation.hpp 41-47); `none`: the stored angle is infinite. -/
noncomputable def checkFractionPi (a : ℝ) : Option ℝ :=
  if a = 0 then some a
  else if Near tol (π / a) (nr (π / a)) then
    if nr (π / a) = 0 then Option.none else some (π / (nr (π / a) : ℝ))
  else some a

/-- `checkInteger(a); checkFractionPi(a);`. -/
noncomputable def fix (a : ℝ) : Option ℝ := checkFractionPi tol nr (checkInteger tol nr a)

/-- `parseU1` (144-170): new type and parameters. -/
noncomputable def parseU1 (lam : ℝ) : Option (OpType × List ℝ) :=
  if Near tol lam 0 then some (i, [])
  else if Near tol |lam| π then some (z, [])
  else if Near tol |lam| (π / 2) then some (if lam < 0 then sdg else s, [])
  else if Near tol |lam| (π / 4) then some (if lam < 0 then tdg else t, [])
  else (fix tol nr lam).map fun l => (p, [l])

/-- `parseU2` (107-142). -/
noncomputable def parseU2 (phi lam : ℝ) : Option (OpType × List ℝ) :=
  let phi1 := clamp (Near tol phi 0) 0 phi
  if Near tol phi 0 ∧ Near tol |lam| π then some (h, [])
  else if Near tol phi 0 ∧ Near tol lam 0 then some (ry, [π / 2])
  else
    let lam1 := clamp (Near tol lam (π / 2)) (π / 2) lam
    if Near tol lam (π / 2) ∧ Near tol phi1 (-(π / 2)) then some (v, [])
    else
      let lam2 := clamp (Near tol lam1 (-(π / 2))) (-(π / 2)) lam1
      if Near tol lam1 (-(π / 2)) ∧ Near tol phi1 (π / 2) then some (vdg, [])
      else
        match fix tol nr lam2, fix tol nr phi1 with
        | some l, some f => some (u2, [f, l])
        | _, _ => Option.none

/-- `parseU3` (36-105). -/
noncomputable def parseU3 (theta phi lam : ℝ) : Option (OpType × List ℝ) :=
  if Near tol theta 0 ∧ Near tol phi 0 then parseU1 tol nr lam
  else if Near tol theta (π / 2) then parseU2 tol nr phi lam
  else
    let lam1 := clamp (Near tol lam 0) 0 lam
    if Near tol lam 0 ∧ Near tol phi 0 then (fix tol nr theta).map fun a => (ry, [a])
    else
      let lam2 := clamp (Near tol lam1 (π / 2)) (π / 2) lam1
      if Near tol lam1 (π / 2) ∧ Near tol phi (-(π / 2)) then
        (fix tol nr theta).map fun a => (rx, [a])
      else
        let phi2 := clamp (Near tol lam1 (π / 2) ∧ Near tol phi (π / 2)) (π / 2) phi
        if Near tol lam1 (π / 2) ∧ Near tol phi (π / 2) ∧ Near tol theta π then some (y, [])
        else
          let lam3 := clamp (Near tol lam2 (-(π / 2))) (-(π / 2)) lam2
          if Near tol lam2 (-(π / 2)) ∧ Near tol phi2 (π / 2) then some (rx, [-theta])
          else
            let lam4 := clamp (Near tol lam3 π) π lam3
            let phi4 := clamp (Near tol lam3 π ∧ Near tol phi2 0) 0 phi2
            if Near tol lam3 π ∧ Near tol phi2 0 ∧ Near tol theta π then some (x, [])
            else
              match fix tol nr lam4, fix tol nr phi4, fix tol nr theta with
              | some l, some f, some a => some (u, [a, f, l])
              | _, _, _ => Option.none

/-- `checkUgate` (172-186) on type and parameters; `none` also when an `assert` on the number of
parameters fails. -/
noncomputable def checkUgate (ty : OpType) (ps : List ℝ) : Option (OpType × List ℝ) :=
  if ps.isEmpty then some (ty, ps)
  else match ty, ps with
    | p, [l] => parseU1 tol nr l
    | p, _ => Option.none
    | u2, [f, l] => parseU2 tol nr f l
    | u2, _ => Option.none
    | u, [a, f, l] => parseU3 tol nr a f l
    | u, _ => Option.none
    | ty, ps => some (ty, ps)

/-! ### The canonical gates are `U` gates -/

theorem cos_pi_four : cos (π / 2 / 2) = r2 := by
  rw [show π / 2 / 2 = π / 4 by ring, Real.cos_pi_div_four, r2]
theorem sin_pi_four : sin (π / 2 / 2) = r2 := by
  rw [show π / 2 / 2 = π / 4 by ring, Real.sin_pi_div_four, r2]

theorem uMat_zero (l : ℝ) : uMat l 0 0 = pMat l := by
  simp [uMat, pMat]; apply mat1_congr <;> first | rfl | (apply Complex.ext <;> simp)
theorem uMat_half (l f : ℝ) : uMat l f (π / 2) = u2Mat l f := by
  rw [uMat, u2Mat, cos_pi_four, sin_pi_four]
theorem uMat_ry (a : ℝ) : uMat 0 0 a = ryMat a := by
  simp [uMat, ryMat]
theorem uMat_rx (a : ℝ) : uMat (π / 2) (-(π / 2)) a = rxMat a := by
  simp [uMat, rxMat]
theorem uMat_rx' (a : ℝ) : uMat (-(π / 2)) (π / 2) a = rxMat (-a) := by
  have : -a / 2 = -(a / 2) := by ring
  simp [uMat, rxMat, this]
theorem uMat_y : uMat (π / 2) (π / 2) π = mat1 0 ⟨0, -1⟩ ⟨0, 1⟩ 0 := by
  simp [uMat]; apply mat1_congr <;> first | rfl | (apply Complex.ext <;> simp)
theorem uMat_x : uMat π 0 π = mat1 0 1 1 0 := by
  simp [uMat]; apply mat1_congr <;> first | rfl | (apply Complex.ext <;> simp)

theorem pMat_zero : pMat 0 = mat1 1 0 0 1 := by
  simp [pMat]; apply mat1_congr <;> first | rfl | (apply Complex.ext <;> simp)
theorem pMat_pi : pMat π = mat1 1 0 0 (-1) := by
  simp [pMat]; apply mat1_congr <;> first | rfl | (apply Complex.ext <;> simp)
theorem pMat_neg_pi : pMat (-π) = mat1 1 0 0 (-1) := by
  simp [pMat]; apply mat1_congr <;> first | rfl | (apply Complex.ext <;> simp)
theorem pMat_half : pMat (π / 2) = mat1 1 0 0 ⟨0, 1⟩ := by simp [pMat]
theorem pMat_neg_half : pMat (-(π / 2)) = mat1 1 0 0 ⟨0, -1⟩ := by simp [pMat]
theorem pMat_quarter : pMat (π / 4) = mat1 1 0 0 ⟨r2, r2⟩ := by
  simp [pMat, r2]
theorem pMat_neg_quarter : pMat (-(π / 4)) = mat1 1 0 0 ⟨r2, -r2⟩ := by
  simp [pMat, r2]
theorem u2Mat_h : u2Mat π 0 = mat1 ⟨r2, 0⟩ ⟨r2, 0⟩ ⟨r2, 0⟩ ⟨-r2, 0⟩ := by simp [u2Mat]
theorem u2Mat_h' : u2Mat (-π) 0 = mat1 ⟨r2, 0⟩ ⟨r2, 0⟩ ⟨r2, 0⟩ ⟨-r2, 0⟩ := by simp [u2Mat]
theorem u2Mat_v : u2Mat (π / 2) (-(π / 2)) = mat1 ⟨r2, 0⟩ ⟨0, -r2⟩ ⟨0, -r2⟩ ⟨r2, 0⟩ := by
  simp [u2Mat]
theorem u2Mat_vdg : u2Mat (-(π / 2)) (π / 2) = mat1 ⟨r2, 0⟩ ⟨0, r2⟩ ⟨0, r2⟩ ⟨r2, 0⟩ := by
  simp [u2Mat]

/-! ### Distances -/

/-- `a` and `b` differ by at most `k` tolerances. -/
def Within (k : ℝ) (a b : ℝ) : Prop := |a - b| ≤ k * tol

variable {tol} {nr}

theorem Within.refl (ht : 0 ≤ tol) {k : ℝ} (hk : 0 ≤ k) (a : ℝ) : Within tol k a a := by
  unfold Within; simp; positivity

theorem Within.trans {k k' a b c : ℝ} (h1 : Within tol k a b) (h2 : Within tol k' b c) :
    Within tol (k + k') a c := by
  unfold Within at *
  have := abs_sub_le a b c
  linarith

theorem Within.mono (ht : 0 ≤ tol) {k k' a b : ℝ} (h : Within tol k a b) (hk : k ≤ k') :
    Within tol k' a b := by
  unfold Within at *
  exact h.trans (mul_le_mul_of_nonneg_right hk ht)

theorem near_within {a b : ℝ} (h : Near tol a b) : Within tol 1 b a := by
  unfold Near at h; unfold Within; rw [abs_sub_comm]; linarith

theorem checkInteger_within (ht : 0 ≤ tol) (a : ℝ) : Within tol 1 (checkInteger tol nr a) a := by
  unfold checkInteger
  split_ifs with h
  · exact near_within h
  · exact Within.refl ht zero_le_one a

theorem checkFractionPi_within (ht : 0 ≤ tol) (ht2 : tol ≤ 1 / 2) {a b : ℝ}
    (h : checkFractionPi tol nr a = some b) : Within tol 8 b a := by
  unfold checkFractionPi at h
  split_ifs at h with h0 h1 h2
  · injection h with h; subst h; exact Within.refl ht (by norm_num) a
  · injection h with h; subst h
    generalize hn : nr (π / a) = n at *
    have hnz : (n : ℝ) ≠ 0 := by exact_mod_cast h2
    have hn1 : (1 : ℝ) ≤ |(n : ℝ)| := by
      have : (1 : ℤ) ≤ |n| := Int.one_le_abs h2
      exact_mod_cast this
    unfold Near at h1
    have hd : |π / a| ≥ 1 / 2 := by
      have := abs_sub_abs_le_abs_sub (n : ℝ) (π / a)
      rw [abs_sub_comm] at this
      linarith
    have hpi := Real.pi_pos
    have key : π / n - a = (π / a - n) * (π / ((π / a) * n)) := by
      field_simp
    unfold Within
    rw [key, abs_mul]
    have hb : |π / (π / a * n)| ≤ 8 := by
      rw [abs_div, abs_of_pos hpi, abs_mul]
      have h3 : (1 / 2 : ℝ) ≤ |π / a| * |(n : ℝ)| := by nlinarith
      rw [div_le_iff₀ (by linarith)]
      have := Real.pi_le_four
      nlinarith
    have : |π / a - ↑n| * |π / (π / a * ↑n)| ≤ tol * 8 :=
      mul_le_mul h1.le hb (abs_nonneg _) ht
    linarith
  · injection h with h; subst h; exact Within.refl ht (by norm_num) a

theorem fix_within (ht : 0 ≤ tol) (ht2 : tol ≤ 1 / 2) {a b : ℝ} (h : fix tol nr a = some b) :
    Within tol 9 b a := by
  have := (checkFractionPi_within ht ht2 h).trans (checkInteger_within ht a)
  exact this.mono ht (by norm_num)

theorem clamp_within (ht : 0 ≤ tol) {P : Prop} [Decidable P] {a c : ℝ} (h : P → Near tol a c) :
    Within tol 1 (clamp P c a) a := by
  unfold clamp
  split_ifs with hp
  · exact near_within (h hp)
  · exact Within.refl ht zero_le_one a

theorem near_abs {a b : ℝ} (h : Near tol |a| b) :
    (a < 0 → Near tol a (-b)) ∧ (¬ a < 0 → Near tol a b) := by
  unfold Near at *
  refine ⟨fun hn => ?_, fun hn => ?_⟩
  · rw [abs_of_neg hn] at h
    rw [show a - -b = -(-a - b) by ring, abs_neg]; exact h
  · rwa [abs_of_nonneg (not_lt.1 hn)] at h

theorem parseU1_spec (ht : 0 ≤ tol) (ht2 : tol ≤ 1 / 2) {lam : ℝ} {ty : OpType} {ps : List ℝ}
    (hp : parseU1 tol nr lam = some (ty, ps)) :
    ∃ l, Within tol 9 l lam ∧ gate1 ty ps = some (pMat l) := by
  have up : ∀ {a b : ℝ}, Near tol a b → Within tol 9 b a := fun h =>
    (near_within h).mono ht (by norm_num)
  unfold parseU1 at hp
  split_ifs at hp with h1 h2 h3 h4 h5 h6
  · cases hp; exact ⟨0, up h1, by rw [pMat_zero]; rfl⟩
  · cases hp
    by_cases hn : lam < 0
    · exact ⟨-π, up ((near_abs h2).1 hn), by rw [pMat_neg_pi]; rfl⟩
    · exact ⟨π, up ((near_abs h2).2 hn), by rw [pMat_pi]; rfl⟩
  · cases hp; exact ⟨_, up ((near_abs h3).1 h4), by rw [pMat_neg_half]; rfl⟩
  · cases hp; exact ⟨_, up ((near_abs h3).2 h4), by rw [pMat_half]; rfl⟩
  · cases hp; exact ⟨_, up ((near_abs h5).1 h6), by rw [pMat_neg_quarter]; rfl⟩
  · cases hp; exact ⟨_, up ((near_abs h5).2 h6), by rw [pMat_quarter]; rfl⟩
  · rw [Option.map_eq_some_iff] at hp
    obtain ⟨l, h7, h8⟩ := hp
    cases h8
    exact ⟨l, fix_within ht ht2 h7, rfl⟩

theorem parseU2_spec (ht : 0 ≤ tol) (ht2 : tol ≤ 1 / 2) {phi lam : ℝ} {ty : OpType}
    {ps : List ℝ} (hp : parseU2 tol nr phi lam = some (ty, ps)) :
    ∃ f l, Within tol 11 f phi ∧ Within tol 11 l lam ∧ gate1 ty ps = some (u2Mat l f) := by
  unfold parseU2 at hp
  dsimp only at hp
  have hphi1 : Within tol 1 (clamp (Near tol phi 0) 0 phi) phi :=
    clamp_within ht fun h => h
  generalize (clamp (Near tol phi 0) 0 phi) = phi1 at hp hphi1
  have hlam1 : Within tol 1 (clamp (Near tol lam (π / 2)) (π / 2) lam) lam :=
    clamp_within ht fun h => h
  generalize (clamp (Near tol lam (π / 2)) (π / 2) lam) = lam1 at hp hlam1
  have hlam2 : Within tol 1
      (clamp (Near tol lam1 (-(π / 2))) (-(π / 2)) lam1) lam1 :=
    clamp_within ht fun h => h
  generalize (clamp (Near tol lam1 (-(π / 2))) (-(π / 2)) lam1) = lam2
    at hp hlam2
  have up : ∀ {a b : ℝ}, Near tol a b → Within tol 11 b a := fun h =>
    (near_within h).mono ht (by norm_num)
  split_ifs at hp with h1 h2 h3 h4
  · cases hp
    by_cases hn : lam < 0
    · exact ⟨0, -π, up h1.1, up ((near_abs h1.2).1 hn), by rw [u2Mat_h']; rfl⟩
    · exact ⟨0, π, up h1.1, up ((near_abs h1.2).2 hn), by rw [u2Mat_h]; rfl⟩
  · cases hp
    exact ⟨0, 0, up h2.1, up h2.2, by rw [← uMat_half, uMat_ry]; rfl⟩
  · cases hp
    exact ⟨_, _, ((near_within h3.2).trans hphi1).mono ht (by norm_num), up h3.1,
      by rw [u2Mat_v]; rfl⟩
  · cases hp
    exact ⟨_, _, ((near_within h4.2).trans hphi1).mono ht (by norm_num),
      ((near_within h4.1).trans hlam1).mono ht (by norm_num), by rw [u2Mat_vdg]; rfl⟩
  · split at hp
    · rename_i l f e1 e2
      cases hp
      refine ⟨f, l, ((fix_within ht ht2 e2).trans hphi1).mono ht (by norm_num),
        (((fix_within ht ht2 e1).trans hlam2).trans hlam1).mono ht (by norm_num), rfl⟩
    · cases hp

theorem parseU3_spec (ht : 0 ≤ tol) (ht2 : tol ≤ 1 / 2) {theta phi lam : ℝ} {ty : OpType}
    {ps : List ℝ} (hp : parseU3 tol nr theta phi lam = some (ty, ps)) :
    ∃ a f l, Within tol 13 a theta ∧ Within tol 13 f phi ∧ Within tol 13 l lam ∧
      gate1 ty ps = some (uMat l f a) := by
  have up : ∀ {a b : ℝ}, Near tol a b → Within tol 13 b a := fun h =>
    (near_within h).mono ht (by norm_num)
  have r : ∀ a : ℝ, Within tol 13 a a := Within.refl ht (by norm_num)
  unfold parseU3 at hp
  dsimp only at hp
  have hlam1 : Within tol 1 (clamp (Near tol lam 0) 0 lam) lam :=
    clamp_within ht fun h => h
  generalize (clamp (Near tol lam 0) 0 lam) = lam1 at hp hlam1
  have hlam2 : Within tol 1 (clamp (Near tol lam1 (π / 2)) (π / 2) lam1) lam1 :=
    clamp_within ht fun h => h
  generalize (clamp (Near tol lam1 (π / 2)) (π / 2) lam1) = lam2 at hp hlam2
  have hphi2 : Within tol 1 (clamp (Near tol lam1 (π / 2) ∧ Near tol phi (π / 2)) (π / 2) phi) phi :=
    clamp_within ht fun h => h.2
  generalize (clamp (Near tol lam1 (π / 2) ∧ Near tol phi (π / 2)) (π / 2) phi) = phi2 at hp hphi2
  have hlam3 : Within tol 1
      (clamp (Near tol lam2 (-(π / 2))) (-(π / 2)) lam2) lam2 :=
    clamp_within ht fun h => h
  generalize (clamp (Near tol lam2 (-(π / 2))) (-(π / 2)) lam2) = lam3
    at hp hlam3
  have hlam4 : Within tol 1 (clamp (Near tol lam3 π) π lam3) lam3 :=
    clamp_within ht fun h => h
  generalize (clamp (Near tol lam3 π) π lam3) = lam4 at hp hlam4
  have hphi4 : Within tol 1 (clamp (Near tol lam3 π ∧ Near tol phi2 0) 0 phi2) phi2 :=
    clamp_within ht fun h => h.2
  generalize (clamp (Near tol lam3 π ∧ Near tol phi2 0) 0 phi2) = phi4 at hp hphi4
  have wl2 := hlam2.trans hlam1
  have wl3 := hlam3.trans wl2
  have wl4 := hlam4.trans wl3
  have wf4 := hphi4.trans hphi2
  split_ifs at hp with h1 h2 h3 h4 h5 h6 h7
  · obtain ⟨l, e1, e2⟩ := parseU1_spec ht ht2 hp
    exact ⟨0, 0, l, up h1.1, up h1.2, e1.mono ht (by norm_num), by rw [uMat_zero]; exact e2⟩
  · obtain ⟨f, l, e1, e2, e3⟩ := parseU2_spec ht ht2 hp
    exact ⟨_, f, l, up h2, e1.mono ht (by norm_num), e2.mono ht (by norm_num),
      by rw [uMat_half]; exact e3⟩
  · rw [Option.map_eq_some_iff] at hp
    obtain ⟨a, e1, e2⟩ := hp
    cases e2
    exact ⟨a, 0, 0, (fix_within ht ht2 e1).mono ht (by norm_num), up h3.2, up h3.1,
      by rw [uMat_ry]; rfl⟩
  · rw [Option.map_eq_some_iff] at hp
    obtain ⟨a, e1, e2⟩ := hp
    cases e2
    exact ⟨a, _, _, (fix_within ht ht2 e1).mono ht (by norm_num), up h4.2,
      ((near_within h4.1).trans hlam1).mono ht (by norm_num), by rw [uMat_rx]; rfl⟩
  · cases hp
    exact ⟨_, _, _, up h5.2.2, up h5.2.1, ((near_within h5.1).trans hlam1).mono ht (by norm_num),
      by rw [uMat_y]; rfl⟩
  · cases hp
    exact ⟨theta, _, _, r _, ((near_within h6.2).trans hphi2).mono ht (by norm_num),
      ((near_within h6.1).trans wl2).mono ht (by norm_num), by rw [uMat_rx']; rfl⟩
  · cases hp
    exact ⟨_, _, _, up h7.2.2, ((near_within h7.2.1).trans hphi2).mono ht (by norm_num),
      ((near_within h7.1).trans wl3).mono ht (by norm_num), by rw [uMat_x]; rfl⟩
  · split at hp
    · rename_i l f a e1 e2 e3
      cases hp
      exact ⟨a, f, l, (fix_within ht ht2 e3).mono ht (by norm_num),
        ((fix_within ht ht2 e2).trans wf4).mono ht (by norm_num),
        ((fix_within ht ht2 e1).trans wl4).mono ht (by norm_num), rfl⟩
    · cases hp

end MQT.IR.ParseU
