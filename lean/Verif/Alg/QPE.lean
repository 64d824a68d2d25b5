/-
Quantum phase estimation (`src/algorithms/QPE.cpp`).
-/
import Verif.Alg.IterativeQFT
import Mathlib.Algebra.Order.Round
import Mathlib.Analysis.Real.Pi.Bounds

set_option autoImplicit false

noncomputable section

open Classical
open Function (update)

namespace MQT.Alg

open MQT.IR MQT.Opt MQT.Sim MQT.DD

/-! ### Model -/

/-- The nearest integer, ties to even. -/
def nearestEven (y : ℝ) : ℤ :=
  if Int.fract y = 1 / 2 then (if ⌊y⌋ % 2 = 0 then ⌊y⌋ else ⌊y⌋ + 1) else round y

/-- `std::remainder(x, 2.0)`, exact. -/
def remainder2 (x : ℝ) : ℝ := x - nearestEven (x / 2) * 2

/-- The normalised angle of round `i` (103-105). -/
def qpeAngle (lam : ℝ) (nq i : ℕ) : ℝ := remainder2 (2 ^ (nq - 1 - i) * lam) * Real.pi

/-- The inverse-QFT rotation of round `i` controlled by qubit `j` (111-120). -/
def qpeRotation (i j : ℕ) : Op ℝ :=
  if j = i then cgate .sdg i (1 + i)
  else if j = i - 1 then cgate .tdg (i - 1) (1 + i)
  else cgate .p j (1 + i) [-Real.pi / 2 ^ (i - j + 1)]

/-- One round (102-122). -/
def qpeRound (lam : ℝ) (nq i : ℕ) : List (Op ℝ) :=
  [cgate .p (1 + i) 0 [qpeAngle lam nq i]] ++ (List.range i).map (fun j => qpeRotation i (j + 1)) ++
    [gate .h (1 + i)]

/-- The unitary part of `constructQPECircuit` (76-122). -/
def qpeUnitary (lam : ℝ) (nq : ℕ) : List (Op ℝ) :=
  [gate .x 0] ++ (List.range nq).map (fun i => gate .h (i + 1)) ++
    (List.range nq).flatMap (qpeRound lam nq)

/-- `constructQPECircuit` (76-130): the operations.  Undefined behaviour: a 64-bit number is shifted by
64 or more. -/
def createQPE (lam : ℝ) (nq : ℕ) : Res (List (Op ℝ)) :=
  if 64 < nq then .ub
  else .ok (qpeUnitary lam nq ++ (List.range nq).map fun i => measG (i + 1) i)

/-- `constructIterativeQPECircuit` (147-196): the operations. -/
def iterativeQPERound (lam : ℝ) (nq i : ℕ) : List (Op ℝ) :=
  [gate .h 1, cgate .p 1 0 [qpeAngle lam nq i]] ++
    (List.range i).map (fun j => ccGate .p 1 j [-Real.pi / 2 ^ (i - j)]) ++ [gate .h 1, measG 1 i]

def createIterativeQPE (lam : ℝ) (nq : ℕ) : Res (List (Op ℝ)) :=
  if 64 < nq then .ub
  else .ok (gate .x 0 :: (List.range nq).flatMap fun i => iterativeQPERound lam nq i ++
    if i < nq - 1 then [.reset [1]] else [])

/-- The phase of `createExactPhase` (30-44) for the random number `theta` (before the draw is repeated
for zero). -/
def exactPhase (nq theta : ℕ) : ℝ :=
  ∑ i ∈ Finset.range nq, if theta.testBit (nq - i - 1) then 1 / 2 ^ i else 0

/-- The phase of `createInexactPhase` (48-63). -/
def inexactPhase (nq theta : ℕ) : ℝ :=
  ∑ i ∈ Finset.range (nq + 1), if theta.testBit (nq - i) then 1 / 2 ^ i else 0

/-! ### Specification: the amplitude of an outcome -/

/-- The phase collected by qubit `i + 1` when the outcomes of the earlier rounds are `y`. -/
def qpePhase (lam : ℝ) (nq : ℕ) (y : ℕ → Bool) (i : ℕ) : ℝ :=
  Real.pi * (2 ^ (nq - 1 - i) * lam) - ∑ l ∈ Finset.range i, bitv (y l) * (Real.pi / 2 ^ (i - l))

/-- The amplitude of the outcomes `y` of the first `k` rounds. -/
def qpeAmp (lam : ℝ) (nq : ℕ) (y : ℕ → Bool) (k : ℕ) : ℂ :=
  ∏ i ∈ Finset.range k, (1 / 2 * (1 + sgn (y i) * cis (qpePhase lam nq y i)))

/-! ### Rotations -/

theorem cis_remainder (x : ℝ) : cis (remainder2 x * Real.pi) = cis (Real.pi * x) := by
  have : Real.pi * x = remainder2 x * Real.pi + (nearestEven (x / 2) : ℝ) * (2 * Real.pi) := by
    unfold remainder2; ring
  rw [this, cis_add, cis_int, mul_one]

theorem cphF_mod {c t : ℕ} {a b : ℝ} (h : cis a = cis b) : cphF c t a = cphF c t b := by
  funext ψ x
  rw [cphF, cphF, h]

theorem acts_csdg (c t : ℕ) : Acts (cgate .sdg c t) (cphF c t (-Real.pi / 2 ^ 1)) :=
  acts_cdiag rfl (by
    rw [← cis_eq, pow_one, neg_div, Real.cos_neg, Real.sin_neg, Real.cos_pi_div_two, Real.sin_pi_div_two]
    rfl) c t

theorem acts_ctdg (c t : ℕ) : Acts (cgate .tdg c t) (cphF c t (-Real.pi / 2 ^ 2)) :=
  acts_cdiag rfl (by
    rw [← cis_eq, show (2 : ℝ) ^ 2 = 4 by norm_num, neg_div, Real.cos_neg, Real.sin_neg,
      Real.cos_pi_div_four, Real.sin_pi_div_four]
    rfl) c t

theorem acts_qpeRotation {i j : ℕ} (hj : j < i) :
    Acts (qpeRotation i (j + 1)) (cphF (j + 1) (1 + i) (-Real.pi / 2 ^ (i - j))) := by
  unfold qpeRotation
  by_cases h1 : j + 1 = i
  · rw [if_pos h1, ← h1, show j + 1 - j = 1 by omega]
    exact acts_csdg _ _
  · by_cases h2 : j + 1 = i - 1
    · rw [if_neg h1, if_pos h2, ← h2, show i - j = 2 by omega]
      exact acts_ctdg _ _
    · rw [if_neg h1, if_neg h2, show i - (j + 1) + 1 = i - j by omega]
      exact acts_cp _ _ _

theorem cphs_fold (t : ℕ) (θ : ℕ → ℝ) (m : ℕ) (ψ : State) (x : Bits) :
    (List.range m).foldl (fun ψ j => cphF (j + 1) t (θ j) ψ) ψ x
      = (if x t = true then cis (∑ j ∈ Finset.range m, bitv (x (j + 1)) * θ j) else 1) * ψ x := by
  induction m with
  | zero => simp [cis_zero]
  | succ m ih =>
    rw [List.range_succ, List.foldl_append, List.foldl_cons, List.foldl_nil, cphF, ih, Finset.sum_range_succ,
      cis_add]
    by_cases ht : x t = true
    · cases hm : x (m + 1)
      · simp [ht, bitv, cis_zero]
      · simp [ht, bitv]; ring
    · simp [ht]

/-- One round on amplitudes. -/
def qpeRoundF (lam : ℝ) (nq i : ℕ) (ψ : State) : State :=
  hadF (1 + i) ((List.range i).foldl (fun ψ j => cphF (j + 1) (1 + i) (-Real.pi / 2 ^ (i - j)) ψ)
    (cphF (1 + i) 0 (qpeAngle lam nq i) ψ))

theorem acts_qpeRound (lam : ℝ) (nq i : ℕ) : ActsL (qpeRound lam nq i) (qpeRoundF lam nq i) := by
  have h := actsL_append (actsL_append (actsL_singleton (acts_cp (qpeAngle lam nq i) (1 + i) 0))
    (actsL_map (g := fun j => qpeRotation i (j + 1)) (List.range i) fun j hj =>
      acts_qpeRotation (List.mem_range.1 hj)))
    (actsL_singleton (acts_h (1 + i)))
  exact h

/-- The state after `k` rounds. -/
def qpeState (lam : ℝ) (nq k : ℕ) : State := fun x =>
  if x 0 = true then (r2 : ℂ) ^ (nq - k) * qpeAmp lam nq (fun i => x (i + 1)) k else 0

theorem qpeAmp_congr {lam : ℝ} {nq k : ℕ} {y z : ℕ → Bool} (h : ∀ i < k, y i = z i) :
    qpeAmp lam nq y k = qpeAmp lam nq z k := by
  unfold qpeAmp
  refine Finset.prod_congr rfl fun i hi => ?_
  have hi := Finset.mem_range.1 hi
  rw [h i hi]
  have : qpePhase lam nq y i = qpePhase lam nq z i := by
    unfold qpePhase
    congr 1
    exact Finset.sum_congr rfl fun l hl => by rw [h l (by have := Finset.mem_range.1 hl; omega)]
  rw [this]

theorem qpePhase_congr {lam : ℝ} {nq i : ℕ} {y z : ℕ → Bool} (h : ∀ l < i, y l = z l) :
    qpePhase lam nq y i = qpePhase lam nq z i := by
  unfold qpePhase
  congr 1
  exact Finset.sum_congr rfl fun l hl => by rw [h l (Finset.mem_range.1 hl)]

theorem qpeRound_state (lam : ℝ) (nq k : ℕ) (hk : k < nq) :
    qpeRoundF lam nq k (qpeState lam nq k) = qpeState lam nq (k + 1) := by
  funext x
  rw [qpeRoundF, hadF_apply, cphs_fold, cphs_fold, Function.update_self, Function.update_self, cphF, cphF,
    Function.update_self, Function.update_self]
  have e0 : ∀ b, update x (1 + k) b 0 = x 0 := fun b => Function.update_of_ne (by omega) _ _
  have eS : ∀ b, qpeState lam nq k (update x (1 + k) b) = qpeState lam nq k x := by
    intro b
    unfold qpeState
    rw [e0, qpeAmp_congr (y := fun i => update x (1 + k) b (i + 1)) (z := fun i => x (i + 1))
      (fun i hi => Function.update_of_ne (by omega) _ _)]
  rw [e0, e0, eS, eS]
  simp only [Bool.false_eq_true, if_false, false_and, if_true, one_mul, true_and]
  by_cases h0 : x 0 = true
  · rw [if_pos h0]
    have ec : cis (∑ j ∈ Finset.range k, bitv (update x (1 + k) true (j + 1)) * (-Real.pi / 2 ^ (k - j)))
        * (cis (qpeAngle lam nq k) * qpeState lam nq k x)
        = cis (qpePhase lam nq (fun i => x (i + 1)) k) * qpeState lam nq k x := by
      rw [qpeAngle, cis_remainder, ← mul_assoc, ← cis_add]
      congr 2
      unfold qpePhase
      rw [add_comm, sub_eq_add_neg, ← Finset.sum_neg_distrib]
      congr 1
      refine Finset.sum_congr rfl fun j hj => ?_
      rw [Function.update_of_ne (by have := Finset.mem_range.1 hj; omega)]
      ring
    rw [ec]
    unfold qpeState
    rw [if_pos h0, if_pos h0, qpeAmp, qpeAmp, Finset.prod_range_succ, show nq - k = nq - (k + 1) + 1 by omega,
      pow_succ]
    have := r2_sq'
    have e1 : x (1 + k) = x (k + 1) := by rw [Nat.add_comm]
    rw [e1]
    set A : ℂ := ∏ i ∈ Finset.range k, (1 / 2 * (1 + sgn (x (i + 1)) * cis (qpePhase lam nq (fun i => x (i + 1)) i)))
    generalize (r2 : ℂ) ^ (nq - (k + 1)) = R
    linear_combination (R * A * (1 + sgn (x (k + 1)) * cis (qpePhase lam nq (fun i => x (i + 1)) k))) * this
  · have hz : ∀ k, qpeState lam nq k x = 0 := fun k => if_neg h0
    rw [hz, hz]
    simp

theorem qpe_had (nq m : ℕ) (hm : m ≤ nq) :
    (List.range m).foldl (fun ψ i => hadF (i + 1) ψ) (pull (flipB 0) (ket0 (nq + 1)))
      = fun x => if x 0 = true ∧ ∀ q, m < q → q ≤ nq → x q = false then (r2 : ℂ) ^ m else 0 := by
  induction m with
  | zero =>
    funext x
    rw [List.range_zero, List.foldl_nil, pull, ket0, pow_zero]
    apply if_congr _ rfl rfl
    constructor
    · intro h
      refine ⟨?_, fun q h0 hq => ?_⟩
      · have := h 0 (by omega)
        rw [flipB, Function.update_self] at this
        simpa using this
      · have := h q (by omega)
        rwa [flipB, Function.update_of_ne (by omega)] at this
    · rintro ⟨h0, h1⟩ q hq
      by_cases e : q = 0
      · rw [e, flipB, Function.update_self, h0]; rfl
      · rw [flipB, Function.update_of_ne e]; exact h1 q (by omega) (by omega)
  | succ m ih =>
    rw [List.range_succ, List.foldl_append, ih (by omega), List.foldl_cons, List.foldl_nil]
    funext x
    rw [hadF_apply, if_neg (c := update x (m + 1) true 0 = true ∧ _) (fun h => by
      have := h.2 (m + 1) (by omega) (by omega)
      rw [Function.update_self] at this
      simp at this), mul_zero, add_zero]
    have hi : (update x (m + 1) false 0 = true ∧ ∀ q, m < q → q ≤ nq → update x (m + 1) false q = false)
        ↔ x 0 = true ∧ ∀ q, m + 1 < q → q ≤ nq → x q = false := by
      rw [Function.update_of_ne (show (0 : ℕ) ≠ m + 1 by omega)]
      refine and_congr_right fun _ => ⟨fun h q h1 h2 => ?_, fun h q h1 h2 => ?_⟩
      · have := h q (by omega) h2
        rwa [Function.update_of_ne (by omega)] at this
      · by_cases e : q = m + 1
        · rw [e, Function.update_self]
        · rw [Function.update_of_ne e]; exact h q (by omega) h2
    by_cases h : x 0 = true ∧ ∀ q, m + 1 < q → q ≤ nq → x q = false
    · rw [if_pos h, if_pos (hi.2 h), pow_succ]; ring
    · rw [if_neg h, if_neg (fun h' => h (hi.1 h')), mul_zero]

/-- **Spec of the unitary part.** -/
theorem qpe_unitary (lam : ℝ) (nq : ℕ) : ∃ F, ActsL (qpeUnitary lam nq) F ∧
    F (ket0 (nq + 1)) = qpeState lam nq nq := by
  have h := actsL_append (actsL_append (actsL_singleton (acts_x 0))
    (actsL_map (g := fun i => gate .h (i + 1)) (List.range nq) fun i _ => acts_h (i + 1)))
    (actsL_flatMap (List.range nq) fun i _ => acts_qpeRound lam nq i)
  refine ⟨_, h, ?_⟩
  rw [qpe_had nq nq le_rfl]
  have key : ∀ k ≤ nq, (List.range k).foldl (fun ψ i => qpeRoundF lam nq i ψ) (qpeState lam nq 0)
      = qpeState lam nq k := by
    intro k
    induction k with
    | zero => intro _; rfl
    | succ k ih =>
      intro hk
      rw [List.range_succ, List.foldl_append, ih (by omega), List.foldl_cons, List.foldl_nil,
        qpeRound_state lam nq k (by omega)]
  rw [← key nq le_rfl]
  congr 1
  funext x
  unfold qpeState qpeAmp
  rw [Finset.range_zero, Finset.prod_empty, mul_one, Nat.sub_zero]
  apply if_congr _ rfl rfl
  exact ⟨fun h => h.1, fun h => ⟨h, fun q h1 h2 => absurd h1 (by omega)⟩⟩

/-- **Spec of the circuit.** -/
theorem qpe_spec (lam : ℝ) (nq : ℕ) (hn : nq ≤ 64) (mem orc : ℕ → Bool) :
    ∃ ops c', createQPE lam nq = .ok ops ∧ run ops ⟨ket0 (nq + 1), mem, orc⟩ = some c' ∧
      (∀ i < nq, c'.mem i = orc i) ∧
      ∀ x : Bits, c'.st x = if x 0 = true ∧ ∀ i < nq, x (i + 1) = orc i then qpeAmp lam nq orc nq else 0 := by
  obtain ⟨F, h1, h2⟩ := qpe_unitary lam nq
  obtain ⟨c', k1, k2, k3, -, -⟩ := run_measures nq (fun i => i + 1) (fun i => i)
    ⟨qpeState lam nq nq, mem, orc⟩
  refine ⟨_, c', if_neg (by omega), ?_, k3 (fun i _ j _ h => h), fun x => ?_⟩
  · rw [run_append, h1, Option.bind_some]
    simp only [Cfg.mapSt]
    rw [h2]
    exact k1
  · rw [k2]
    simp only [qpeState]
    by_cases h : ∀ i < nq, x (i + 1) = orc i
    · rw [if_pos h, Nat.sub_self, pow_zero, one_mul, qpeAmp_congr h]
      apply if_congr _ rfl rfl
      exact ⟨fun h0 => ⟨h0, h⟩, fun h0 => h0.1⟩
    · rw [if_neg h, if_neg (fun h' => h h'.2)]

/-! ### Amplitudes -/

theorem mod_pow_succ' (θ i : ℕ) : θ % 2 ^ (i + 1) = θ % 2 ^ i + bitv (θ.testBit i) * 2 ^ i := by
  rw [Nat.mod_pow_succ, Nat.testBit_eq_decide_div_mod_eq]
  rcases Nat.mod_two_eq_zero_or_one (θ / 2 ^ i) with h | h <;> simp [h, bitv]

/-- The value of the bits `0, …, i-1` of a number. -/
theorem sum_bits (θ i : ℕ) : ∑ l ∈ Finset.range i, bitv (θ.testBit l) * 2 ^ l = θ % 2 ^ i := by
  induction i with
  | zero => simp [Nat.mod_one]
  | succ i ih =>
    rw [Finset.sum_range_succ, ih, mod_pow_succ']

/-- If the phase is `(y + δ) / 2^(n-1)`, up to a multiple of 2, the phase collected in round `i` is that
of bit `i` of `y`, up to the error `δ`. -/
theorem qpePhase_near {lam δ : ℝ} {nq y : ℕ} {k : ℤ} (h : 2 ^ (nq - 1) * lam = y + δ + 2 ^ nq * k)
    (i : ℕ) (hi : i < nq) :
    sgn (y.testBit i) * cis (qpePhase lam nq y.testBit i) = cis (Real.pi * δ / 2 ^ i) := by
  have hs : ∑ l ∈ Finset.range i, (bitv (y.testBit l) : ℝ) * (Real.pi / 2 ^ (i - l))
      = Real.pi * (y % 2 ^ i : ℕ) / 2 ^ i := by
    rw [← sum_bits y i]
    push_cast
    rw [Finset.mul_sum, div_eq_mul_inv, Finset.sum_mul]
    refine Finset.sum_congr rfl fun l hl => ?_
    have hl := Finset.mem_range.1 hl
    have : (2 : ℝ) ^ i = 2 ^ (i - l) * 2 ^ l := by rw [← pow_add]; congr 1; omega
    rw [this]
    field_simp
  have hlam : (2 : ℝ) ^ (nq - 1 - i) * lam = (y + δ + 2 ^ nq * k) / 2 ^ i := by
    rw [← h, eq_div_iff (by positivity)]
    have : (2 : ℝ) ^ (nq - 1) = 2 ^ (nq - 1 - i) * 2 ^ i := by rw [← pow_add]; congr 1; omega
    rw [this]; ring
  have hy : (y : ℝ) = (y / 2 ^ (i + 1) : ℕ) * 2 ^ (i + 1) + bitv (y.testBit i) * 2 ^ i + (y % 2 ^ i : ℕ) := by
    have h1 := Nat.div_add_mod y (2 ^ (i + 1))
    rw [mod_pow_succ'] at h1
    have h2 : y = y / 2 ^ (i + 1) * 2 ^ (i + 1) + bitv (y.testBit i) * 2 ^ i + y % 2 ^ i := by
      nth_rewrite 1 [← h1]
      ring
    exact_mod_cast congrArg (fun z : ℕ => (z : ℝ)) h2
  have hn : (2 : ℝ) ^ nq = 2 ^ (nq - 1 - i) * 2 * 2 ^ i := by
    rw [← pow_succ, ← pow_add]; congr 1; omega
  have e : qpePhase lam nq y.testBit i = Real.pi * δ / 2 ^ i + bitv (y.testBit i) * Real.pi
      + ((((y / 2 ^ (i + 1) : ℕ) : ℤ) + 2 ^ (nq - 1 - i) * k : ℤ) : ℝ) * (2 * Real.pi) := by
    unfold qpePhase
    rw [hs, hlam, hn]
    nth_rewrite 1 [hy]
    rw [Int.cast_add, Int.cast_natCast, Int.cast_mul, Int.cast_pow, Int.cast_ofNat, pow_succ]
    generalize ((y / (2 ^ i * 2) : ℕ) : ℝ) = D
    field_simp
    ring
  rw [e, cis_add, cis_add, cis_int, mul_one]
  cases y.testBit i
  · simp [sgn, bitv, cis_zero]
  · simp [sgn, bitv, cis_pi]

theorem half_one_add_cis (u : ℝ) : Complex.normSq (1 / 2 * (1 + cis u)) = Real.cos (u / 2) ^ 2 := by
  rw [← cis_eq, Complex.normSq_apply]
  have h1 := Real.sin_sq_add_cos_sq u
  have h2 := Real.cos_sq (u / 2)
  rw [show 2 * (u / 2) = u by ring] at h2
  simp
  nlinarith

theorem qpeAmp_near {lam δ : ℝ} {nq y : ℕ} {k : ℤ} (h : 2 ^ (nq - 1) * lam = y + δ + 2 ^ nq * k) :
    Complex.normSq (qpeAmp lam nq y.testBit nq)
      = (∏ i ∈ Finset.range nq, Real.cos (Real.pi * δ / 2 ^ (i + 1))) ^ 2 := by
  unfold qpeAmp
  rw [map_prod, ← Finset.prod_pow]
  refine Finset.prod_congr rfl fun i hi => ?_
  rw [qpePhase_near h i (Finset.mem_range.1 hi), half_one_add_cis]
  congr 2
  rw [pow_succ, div_div]

theorem prod_cos (t : ℝ) (n : ℕ) :
    (∏ i ∈ Finset.range n, Real.cos (t / 2 ^ (i + 1))) * (2 ^ n * Real.sin (t / 2 ^ n)) = Real.sin t := by
  induction n with
  | zero => simp
  | succ n ih =>
    rw [Finset.prod_range_succ, ← ih]
    have : t / 2 ^ n = 2 * (t / 2 ^ (n + 1)) := by rw [pow_succ]; field_simp
    rw [this, Real.sin_two_mul]
    ring

/-- The nearest grid point is found with probability at least `4/π²`. -/
theorem prod_cos_ge {t : ℝ} (h : |t| ≤ Real.pi / 2) (n : ℕ) :
    4 / Real.pi ^ 2 ≤ (∏ i ∈ Finset.range n, Real.cos (t / 2 ^ (i + 1))) ^ 2 := by
  have hpi := Real.pi_pos
  have hpi3 := Real.pi_gt_three
  by_cases h0 : t = 0
  · subst h0
    simp
    rw [div_le_one (by positivity)]
    nlinarith
  have key : ∀ t : ℝ, 0 < t → t ≤ Real.pi / 2 →
      2 / Real.pi ≤ ∏ i ∈ Finset.range n, Real.cos (t / 2 ^ (i + 1)) := by
    intro t ht0 ht
    have h1 := prod_cos t n
    have h2 : 2 / Real.pi * t ≤ Real.sin t := Real.mul_le_sin ht0.le ht
    have hu : 0 < t / 2 ^ n := by positivity
    have hule : t / 2 ^ n ≤ t := div_le_self ht0.le (one_le_pow₀ (by norm_num))
    have h3 : Real.sin (t / 2 ^ n) ≤ t / 2 ^ n := (Real.sin_lt hu).le
    have h4 : 0 < Real.sin (t / 2 ^ n) := Real.sin_pos_of_pos_of_lt_pi hu (by linarith)
    have h5 : (2 : ℝ) ^ n * Real.sin (t / 2 ^ n) ≤ t := by
      calc (2 : ℝ) ^ n * Real.sin (t / 2 ^ n) ≤ 2 ^ n * (t / 2 ^ n) :=
            mul_le_mul_of_nonneg_left h3 (by positivity)
        _ = t := by field_simp
    have h6 : (0 : ℝ) < 2 ^ n * Real.sin (t / 2 ^ n) := by positivity
    by_contra hc
    push Not at hc
    have : Real.sin t < 2 / Real.pi * t := by
      rw [← h1]
      calc _ < 2 / Real.pi * (2 ^ n * Real.sin (t / 2 ^ n)) := mul_lt_mul_of_pos_right hc h6
        _ ≤ _ := mul_le_mul_of_nonneg_left h5 (by positivity)
    linarith
  have hsq : ∀ p : ℝ, 2 / Real.pi ≤ p → 4 / Real.pi ^ 2 ≤ p ^ 2 := by
    intro p hp
    have h0 : 0 < 2 / Real.pi := by positivity
    calc 4 / Real.pi ^ 2 = (2 / Real.pi) ^ 2 := by rw [div_pow]; norm_num
      _ ≤ p ^ 2 := pow_le_pow_left₀ h0.le hp 2
  rcases lt_or_gt_of_ne h0 with hneg | hpos
  · have h1 := hsq _ (key (-t) (by linarith) (by rw [abs_of_neg hneg] at h; exact h))
    simpa [neg_div] using h1
  · exact hsq _ (key t hpos (by rw [abs_of_pos hpos] at h; exact h))

theorem qpeAmp_exact {lam : ℝ} {nq θ : ℕ} {k : ℤ} (h : 2 ^ (nq - 1) * lam = θ + 2 ^ nq * k) (y : ℕ → Bool) :
    qpeAmp lam nq y nq = if ∀ i < nq, y i = θ.testBit i then 1 else 0 := by
  have h' : 2 ^ (nq - 1) * lam = θ + 0 + 2 ^ nq * k := by rw [h]; ring
  by_cases hy : ∀ i < nq, y i = θ.testBit i
  · rw [if_pos hy, qpeAmp_congr hy]
    unfold qpeAmp
    refine Finset.prod_eq_one fun i hi => ?_
    rw [qpePhase_near h' i (Finset.mem_range.1 hi)]
    simp [cis_zero]
    norm_num
  · rw [if_neg hy]
    push Not at hy
    have hex : ∃ i, i < nq ∧ y i ≠ θ.testBit i := hy
    obtain ⟨h1, h2⟩ := Nat.find_spec hex
    have hmin : ∀ l < Nat.find hex, y l = θ.testBit l := fun l hl => by
      by_contra hc
      exact Nat.find_min hex hl ⟨by omega, hc⟩
    unfold qpeAmp
    refine Finset.prod_eq_zero (Finset.mem_range.2 h1) ?_
    rw [qpePhase_congr hmin]
    have h3 := qpePhase_near h' _ h1
    have h4 : sgn (y (Nat.find hex)) = -sgn (θ.testBit (Nat.find hex)) := by
      revert h2
      cases y (Nat.find hex) <;> cases θ.testBit (Nat.find hex) <;> simp [sgn]
    rw [h4, neg_mul, h3]
    simp [cis_zero]

theorem exactPhase_eq (nq θ : ℕ) (hθ : θ < 2 ^ nq) (hn : 0 < nq) : 2 ^ (nq - 1) * exactPhase nq θ = θ := by
  have h := sum_bits θ nq
  rw [Nat.mod_eq_of_lt hθ, ← Finset.sum_range_reflect] at h
  rw [exactPhase, Finset.mul_sum]
  have h' := congrArg (fun z : ℕ => (z : ℝ)) h
  rw [← h']
  push_cast
  refine Finset.sum_congr rfl fun i hi => ?_
  have hi := Finset.mem_range.1 hi
  rw [show nq - i - 1 = nq - 1 - i by omega]
  have : (2 : ℝ) ^ (nq - 1) = 2 ^ (nq - 1 - i) * 2 ^ i := by rw [← pow_add]; congr 1; omega
  rw [this]
  cases θ.testBit (nq - 1 - i)
  · simp [bitv]
  · simp [bitv]

theorem inexactPhase_eq (nq θ : ℕ) (hθ : θ < 2 ^ (nq + 1)) : 2 ^ nq * inexactPhase nq θ = θ := by
  have h := exactPhase_eq (nq + 1) θ hθ (by omega)
  have e : exactPhase (nq + 1) θ = inexactPhase nq θ := by
    unfold exactPhase inexactPhase
    refine Finset.sum_congr rfl fun i hi => ?_
    rw [show nq + 1 - i - 1 = nq - i by omega]
  rw [e] at h
  exact h

/-! ### The iterative version -/

/-- Qubit 0 set, amplitudes `v0`, `v1` of qubit 1. -/
def qS (v0 v1 : ℂ) : State := fun x => if x 0 = true then (if x 1 = true then v1 else v0) else 0

theorem qS_h (v0 v1 : ℂ) : hadF 1 (qS v0 v1) = qS (r2 * (v0 + v1)) (r2 * (v0 - v1)) := by
  funext x
  rw [hadF_apply]
  unfold qS
  simp only [Function.update_self, Function.update_of_ne (show (0 : ℕ) ≠ 1 by omega)]
  cases x 0 <;> cases x 1 <;> simp only [sgn, Bool.false_eq_true, if_false, if_true] <;> ring

theorem qS_cp (θ : ℝ) (v0 v1 : ℂ) : cphF 1 0 θ (qS v0 v1) = qS v0 (cis θ * v1) := by
  funext x
  unfold cphF qS
  cases x 0 <;> cases x 1 <;> simp

theorem exec_ccp (θ : ℝ) (j : ℕ) (v0 v1 : ℂ) (mem orc : ℕ → Bool) :
    exec (ccGate .p 1 j [θ]) ⟨qS v0 v1, mem, orc⟩
      = some ⟨qS v0 (cis (bitv (mem j) * θ) * v1), mem, orc⟩ := by
  unfold ccGate
  rw [exec]
  cases hm : mem j
  · simp [hm, bitv, cis_zero]
  · simp only [hm, beq_self_eq_true, if_true]
    have hA : Acts (gate .p 1 [θ]) (app1 (mat1 1 0 0 (cis θ)) 1) := by
      apply acts_std
      rw [StdOp.denote_single_of (q := 1) (M := mat1 1 0 0 (cis θ)) rfl rfl (by rw [← cis_eq]; rfl)]
      rfl
    rw [hA]
    simp only [Cfg.mapSt]
    congr 2
    funext x
    unfold app1 qS
    rw [Fintype.sum_bool]
    simp only [Function.update_self, Function.update_of_ne (show (0 : ℕ) ≠ 1 by omega)]
    cases x 0 <;> cases x 1 <;> simp [mat1, bitv]

theorem run_ccps (θ : ℕ → ℝ) (m : ℕ) (v0 v1 : ℂ) (mem orc : ℕ → Bool) :
    run ((List.range m).map fun j => ccGate .p 1 j [θ j]) ⟨qS v0 v1, mem, orc⟩
      = some ⟨qS v0 (cis (∑ j ∈ Finset.range m, bitv (mem j) * θ j) * v1), mem, orc⟩ := by
  induction m with
  | zero => simp [run_nil, cis_zero]
  | succ m ih =>
    rw [List.range_succ, List.map_append, run_append, ih, Option.bind_some, List.map_cons, List.map_nil,
      run_cons, exec_ccp, Option.bind_some, run_nil, Finset.sum_range_succ, cis_add]
    congr 3
    ring

theorem iqpe_round (lam : ℝ) (nq i : ℕ) (a : ℂ) (mem orc : ℕ → Bool) :
    run (iterativeQPERound lam nq i) ⟨qS a 0, mem, orc⟩
      = some ⟨qS (if orc 0 then 0 else a * (1 / 2 * (1 + cis (qpePhase lam nq mem i))))
          (if orc 0 then a * (1 / 2 * (1 - cis (qpePhase lam nq mem i))) else 0),
          update mem i (orc 0), fun k => orc (k + 1)⟩ := by
  unfold iterativeQPERound
  rw [run_append, run_append, run_cons, acts_h, Option.bind_some, run_cons, acts_cp, Option.bind_some, run_nil,
    Option.bind_some]
  simp only [Cfg.mapSt]
  rw [qS_h, qS_cp, run_ccps (fun j => -Real.pi / 2 ^ (i - j)), Option.bind_some, run_cons, acts_h,
    Option.bind_some, run_cons, measG, exec]
  simp only [Option.bind_some, List.zip_cons_cons, List.zip_nil_right, List.foldl_cons, List.foldl_nil,
    run_nil, Cfg.mapSt, measure1]
  rw [qS_h]
  have ec : cis (∑ j ∈ Finset.range i, bitv (mem j) * (-Real.pi / 2 ^ (i - j)))
      * (cis (qpeAngle lam nq i) * (r2 * (a - 0))) = cis (qpePhase lam nq mem i) * (r2 * a) := by
    rw [qpeAngle, cis_remainder, ← mul_assoc, ← cis_add, sub_zero]
    congr 2
    unfold qpePhase
    rw [add_comm, sub_eq_add_neg, ← Finset.sum_neg_distrib]
    congr 1
    exact Finset.sum_congr rfl fun j hj => by ring
  rw [ec]
  congr 2
  funext x
  rw [proj_apply]
  unfold qS
  have := r2_sq'
  cases x 0 <;> cases hx : x 1 <;> cases ho : orc 0 <;>
    simp only [Bool.false_eq_true, if_false, if_true, reduceCtorEq] <;>
    first
    | rfl
    | linear_combination (a * (1 + cis (qpePhase lam nq mem i))) * this
    | linear_combination (a * (1 - cis (qpePhase lam nq mem i))) * this

theorem iqpe_reset (v0 v1 : ℂ) (mem orc : ℕ → Bool) :
    run [.reset [1]] ⟨qS v0 v1, mem, orc⟩
      = some ⟨qS (if orc 0 then v1 else v0) 0, mem, fun k => orc (k + 1)⟩ := by
  rw [run_cons, exec]
  simp only [Option.bind_some, List.foldl_cons, List.foldl_nil, run_nil, reset1]
  congr 2
  funext x
  cases ho : orc 0
  · simp only [Bool.false_eq_true, if_false]
    rw [proj_apply]
    unfold qS
    cases x 0 <;> cases x 1 <;> simp
  · simp only [if_true]
    rw [flip_apply, proj_apply]
    unfold qS flipB
    simp only [Function.update_self, Function.update_of_ne (show (0 : ℕ) ≠ 1 by omega)]
    cases x 0 <;> cases x 1 <;> simp

theorem qpeAmp_succ (lam : ℝ) (nq : ℕ) (y : ℕ → Bool) (k : ℕ) : qpeAmp lam nq y (k + 1)
    = qpeAmp lam nq y k * (1 / 2 * (1 + sgn (y k) * cis (qpePhase lam nq y k))) := by
  unfold qpeAmp; rw [Finset.prod_range_succ]

theorem iqpe_rounds (lam : ℝ) (nq k : ℕ) (hk : k < nq) (mem orc : ℕ → Bool) :
    ∃ mem', run ((List.range k).flatMap fun i => iterativeQPERound lam nq i ++
        if i < nq - 1 then [.reset [1]] else []) ⟨qS 1 0, mem, orc⟩
      = some ⟨qS (if ∀ i < k, orc (2 * i + 1) = orc (2 * i) then qpeAmp lam nq (fun i => orc (2 * i)) k else 0) 0,
          mem', fun j => orc (j + 2 * k)⟩ ∧ ∀ i < k, mem' i = orc (2 * i) := by
  induction k with
  | zero =>
    refine ⟨mem, ?_, fun i hi => absurd hi (by omega)⟩
    rw [List.range_zero, List.flatMap_nil, run_nil]
    simp [qpeAmp]
  | succ k ih =>
    obtain ⟨mem', h1, h2⟩ := ih (by omega)
    refine ⟨update mem' k (orc (2 * k)), ?_, fun i hi => ?_⟩
    · rw [List.range_succ, List.flatMap_append, run_append, h1, Option.bind_some, List.flatMap_cons,
        List.flatMap_nil, List.append_nil, run_append, iqpe_round, Option.bind_some,
        if_pos (show k < nq - 1 by omega), iqpe_reset]
      have e : (∀ i < k + 1, orc (2 * i + 1) = orc (2 * i)) ↔
          (∀ i < k, orc (2 * i + 1) = orc (2 * i)) ∧ orc (0 + 1 + 2 * k) = orc (0 + 2 * k) := by
        rw [show 0 + 1 + 2 * k = 2 * k + 1 by omega, Nat.zero_add]
        constructor
        · intro h; exact ⟨fun i hi => h i (by omega), h k (by omega)⟩
        · rintro ⟨h, h'⟩ i hi
          by_cases e : i = k
          · rw [e]; exact h'
          · exact h i (by omega)
      have hp : qpePhase lam nq mem' k = qpePhase lam nq (fun i => orc (2 * i)) k := qpePhase_congr h2
      congr 2
      · congr 1
        rw [hp]
        by_cases ha : ∀ i < k, orc (2 * i + 1) = orc (2 * i)
        · rw [if_pos ha]
          by_cases hb : orc (0 + 1 + 2 * k) = orc (0 + 2 * k)
          · rw [if_pos (e.2 ⟨ha, hb⟩), hb, qpeAmp_succ]
            have e0 : orc (2 * k) = orc (0 + 2 * k) := by rw [Nat.zero_add]
            cases ho : orc (0 + 2 * k) <;> rw [ho] at e0 <;> rw [e0] <;>
              simp only [sgn, Bool.false_eq_true, if_false, if_true] <;> ring
          · rw [if_neg (fun h => hb (e.1 h).2)]
            cases ho : orc (0 + 2 * k) <;> rw [ho] at hb <;> simp at hb <;> simp [hb]
        · rw [if_neg ha, if_neg (fun h => ha (e.1 h).1)]
          simp
      · rw [Nat.zero_add]
      · funext j; congr 1; omega
    · by_cases e : i = k
      · rw [e, Function.update_self]
      · rw [Function.update_of_ne e]; exact h2 i (by omega)

theorem iqpe_spec (lam : ℝ) (nq : ℕ) (h0 : 0 < nq) (hn : nq ≤ 64) (mem orc : ℕ → Bool) :
    ∃ ops c', createIterativeQPE lam nq = .ok ops ∧ run ops ⟨ket0 2, mem, orc⟩ = some c' ∧
      (∀ i < nq, c'.mem i = orc (2 * i)) ∧
      ∀ x : Bits, c'.st x = if (∀ i < nq - 1, orc (2 * i + 1) = orc (2 * i)) ∧ x 0 = true ∧
        x 1 = orc (2 * (nq - 1)) then qpeAmp lam nq (fun i => orc (2 * i)) nq else 0 := by
  obtain ⟨k, rfl⟩ : ∃ k, nq = k + 1 := ⟨nq - 1, by omega⟩
  obtain ⟨mem', h1, h2⟩ := iqpe_rounds lam (k + 1) k (by omega) mem orc
  have hk : pull (flipB 0) (ket0 2) = qS 1 0 := by
    funext x
    rw [pull, ket0, qS]
    have : (∀ q < 2, flipB 0 x q = false) ↔ x 0 = true ∧ ¬ x 1 = true := by
      constructor
      · intro h
        have a := h 0 (by omega)
        have b := h 1 (by omega)
        rw [flipB, Function.update_self] at a
        rw [flipB, Function.update_of_ne (by omega)] at b
        exact ⟨by simpa using a, by simp [b]⟩
      · rintro ⟨h, h'⟩ q hq
        obtain rfl | rfl : q = 0 ∨ q = 1 := by omega
        · rw [flipB, Function.update_self, h]; rfl
        · rw [flipB, Function.update_of_ne (by omega)]; simpa using h'
    rw [if_congr this rfl rfl]
    cases x 0 <;> cases x 1 <;> simp
  have hc := iqpe_round lam (k + 1) k
    (if ∀ i < k, orc (2 * i + 1) = orc (2 * i) then qpeAmp lam (k + 1) (fun i => orc (2 * i)) k else 0) mem'
    (fun j => orc (j + 2 * k))
  refine ⟨_, _, if_neg (by omega), Eq.trans ?_ hc, ?_, ?_⟩
  · rw [run_cons, acts_x, Option.bind_some]
    simp only [Cfg.mapSt]
    rw [hk, List.range_succ, List.flatMap_append, run_append, h1, Option.bind_some, List.flatMap_cons,
      List.flatMap_nil, List.append_nil, if_neg (by omega), List.append_nil]
  · intro i hi
    show update mem' k (orc (0 + 2 * k)) i = _
    by_cases e : i = k
    · rw [e, Function.update_self, Nat.zero_add]
    · rw [Function.update_of_ne e]; exact h2 i (by omega)
  · intro x
    have hp : qpePhase lam (k + 1) mem' k = qpePhase lam (k + 1) (fun i => orc (2 * i)) k := qpePhase_congr h2
    show qS _ _ x = _
    rw [hp, qpeAmp_succ]
    simp only [Nat.zero_add, show k + 1 - 1 = k by omega]
    unfold qS
    by_cases ha : ∀ i < k, orc (2 * i + 1) = orc (2 * i)
    · simp only [if_pos ha]
      have hi : ((∀ i < k, orc (2 * i + 1) = orc (2 * i)) ∧ x 0 = true ∧ x 1 = orc (2 * k))
          ↔ x 0 = true ∧ x 1 = orc (2 * k) := ⟨fun h => h.2, fun h => ⟨ha, h⟩⟩
      rw [if_congr hi rfl rfl]
      cases x 0 <;> cases x 1 <;> cases orc (2 * k) <;>
        simp only [sgn, Bool.false_eq_true, if_false, if_true, and_self, and_false, and_true,
          reduceCtorEq] <;> ring
    · simp only [if_neg ha]
      have hi : ¬((∀ i < k, orc (2 * i + 1) = orc (2 * i)) ∧ x 0 = true ∧ x 1 = orc (2 * k)) :=
        fun h => ha h.1
      rw [if_neg hi]
      simp

end MQT.Alg
