/-
The quantum Fourier transform circuits (`src/algorithms/QFT.cpp`).
-/
import Verif.Alg.Product

set_option autoImplicit false

noncomputable section

open Function (update)

namespace MQT.Alg

open MQT.IR MQT.Opt MQT.Sim MQT.DD

/-- The controlled rotation between qubits `i` and `d = i - j` (34-42). -/
def qftRotation (i d : ℕ) : Op ℝ :=
  let j := i - d
  if j = 1 then cgate .s i d
  else if j = 2 then cgate .t i d
  else cgate .p i d [Real.pi / 2 ^ j]

/-- The body of the loop over `i` (31-47); the inner loop runs `j = i, …, 1`, i.e. `d = 0, …, i-1`. -/
def qftRound (i : ℕ) : List (Op ℝ) := (List.range i).map (qftRotation i) ++ [gate .h i]

/-- `createQFT` (23-67): the operations … -/
def createQFT (nq : ℕ) (includeMeasurements : Bool) : List (Op ℝ) :=
  (List.range nq).flatMap qftRound ++
    if includeMeasurements then (List.range nq).map fun i => measG i (nq - 1 - i)
    else (List.range (nq / 2)).map fun i => swapG i (nq - 1 - i)

/-- … and the output permutation. -/
def qftOutput (nq : ℕ) : Perm := (List.range nq).map fun i => (i, nq - 1 - i)

/-! ### Specification -/

/-- A bit as a number. -/
def bitv (b : Bool) : ℕ := if b then 1 else 0

/-- The number written in the first `n` qubits, qubit 0 being the most significant bit. -/
def bigEndian (n : ℕ) (x : Bits) : ℕ := ∑ i ∈ Finset.range n, bitv (x i) * 2 ^ (n - 1 - i)

/-- The discrete Fourier transform of the amplitudes of the first `n` qubits. -/
def dft (n : ℕ) (ψ : State) : State := fun x =>
  (r2 : ℂ) ^ n * sumB n (fun y => cis (2 * Real.pi * (bigEndian n x * bigEndian n y) / 2 ^ n) * ψ y) x

/-! ### Proofs -/

theorem acts_rotation {i d : ℕ} : Acts (qftRotation i d) (cphF i d (Real.pi / 2 ^ (i - d))) := by
  unfold qftRotation
  by_cases h1 : i - d = 1
  · simp only [h1, if_true]
    rw [pow_one]; exact acts_cs _ _
  · by_cases h2 : i - d = 2
    · simp only [h2, if_true]
      rw [if_neg (by norm_num), show (2 : ℝ) ^ 2 = 4 by norm_num]; exact acts_ct _ _
    · simp only [h1, h2, if_false]
      exact acts_cp _ _ _

theorem cphF_apply (c t : ℕ) (θ : ℝ) (ψ : State) (x : Bits) :
    cphF c t θ ψ x = cis (bitv (x c) * bitv (x t) * θ) * ψ x := by
  unfold cphF
  cases x c <;> cases x t <;> simp [bitv, cis_zero]

theorem rotations_fold (i m : ℕ) (ψ : State) (x : Bits) :
    (List.range m).foldl (fun ψ d => cphF i d (Real.pi / 2 ^ (i - d)) ψ) ψ x
      = cis (bitv (x i) * ∑ d ∈ Finset.range m, bitv (x d) * (Real.pi / 2 ^ (i - d))) * ψ x := by
  induction m generalizing x with
  | zero => simp [cis_zero]
  | succ m ih =>
    rw [List.range_succ, List.foldl_append, List.foldl_cons, List.foldl_nil, cphF_apply, ih,
      Finset.sum_range_succ, mul_add, cis_add]
    rw [show (bitv (x i) : ℝ) * bitv (x m) * (Real.pi / 2 ^ (i - m))
      = bitv (x i) * (bitv (x m) * (Real.pi / 2 ^ (i - m))) by ring]
    ring

/-- Effect of a round. -/
def roundF (i : ℕ) (ψ : State) : State :=
  hadF i ((List.range i).foldl (fun ψ d => cphF i d (Real.pi / 2 ^ (i - d)) ψ) ψ)

theorem acts_round (i : ℕ) : ActsL (qftRound i) (roundF i) := by
  have h := actsL_append (actsL_map (List.range i) fun d _ => acts_rotation (i := i) (d := d))
    (actsL_singleton (acts_h i))
  exact h

theorem roundF_apply (i : ℕ) (ψ : State) (x : Bits) :
    roundF i ψ x = r2 * (ψ (update x i false)
      + cis (∑ d ∈ Finset.range (i + 1), bitv (x d) * (Real.pi / 2 ^ (i - d))) * ψ (update x i true)) := by
  rw [roundF, hadF_apply, rotations_fold, rotations_fold, Function.update_self, Function.update_self,
    Finset.sum_range_succ, Nat.sub_self, pow_zero, div_one, add_comm, cis_add, sgn_eq]
  have e : ∀ b, ∑ d ∈ Finset.range i, (bitv (update x i b d) : ℝ) * (Real.pi / 2 ^ (i - d))
      = ∑ d ∈ Finset.range i, bitv (x d) * (Real.pi / 2 ^ (i - d)) := by
    intro b
    exact Finset.sum_congr rfl fun d hd => by
      rw [Function.update_of_ne (by have := Finset.mem_range.1 hd; omega)]
  rw [e, e]
  have e2 : (if x i then Real.pi else 0) = (bitv (x i) : ℝ) * Real.pi := by
    cases x i <;> simp [bitv]
  rw [e2]
  simp only [bitv, Bool.false_eq_true, if_false, if_true, Nat.cast_zero, zero_mul, cis_zero, Nat.cast_one,
    one_mul]
  ring

/-- The phase collected by the rounds below `k` between the output `x` and the input `y`. -/
def qph (k : ℕ) (x y : Bits) : ℝ :=
  ∑ i ∈ Finset.range k, bitv (y i) * ∑ d ∈ Finset.range (i + 1), bitv (x d) * (Real.pi / 2 ^ (i - d))

theorem rounds_fold (k : ℕ) (ψ : State) (x : Bits) :
    (List.range k).foldl (fun ψ i => roundF i ψ) ψ x
      = (r2 : ℂ) ^ k * sumB k (fun y => cis (qph k x y) * ψ y) x := by
  induction k generalizing x with
  | zero => simp [sumB, qph, cis_zero]
  | succ k ih =>
    rw [List.range_succ, List.foldl_append, List.foldl_cons, List.foldl_nil, roundF_apply, ih, ih, sumB,
      pow_succ]
    have e : ∀ b, sumB k (fun y => cis (qph (k + 1) x y) * ψ y) (update x k b)
        = cis (bitv b * ∑ d ∈ Finset.range (k + 1), bitv (x d) * (Real.pi / 2 ^ (k - d)))
          * sumB k (fun y => cis (qph k (update x k b) y) * ψ y) (update x k b) := by
      intro b
      rw [← sumB_mul_left]
      apply sumB_congr
      intro z hz
      have hzk := hz k le_rfl
      rw [Function.update_self] at hzk
      have e1 : qph k (update x k b) z = qph k x z := by
        unfold qph
        refine Finset.sum_congr rfl fun i hi => ?_
        congr 1
        refine Finset.sum_congr rfl fun d hd => ?_
        rw [Function.update_of_ne (by have := Finset.mem_range.1 hi; have := Finset.mem_range.1 hd; omega)]
      have e2 : qph (k + 1) x z = qph k x z
          + bitv b * ∑ d ∈ Finset.range (k + 1), bitv (x d) * (Real.pi / 2 ^ (k - d)) := by
        unfold qph
        rw [Finset.sum_range_succ, hzk]
      rw [e1, e2, cis_add]
      ring
    rw [e, e]
    simp only [bitv, Bool.false_eq_true, if_false, if_true, Nat.cast_zero, zero_mul, cis_zero, Nat.cast_one,
      one_mul]
    ring

/-- Reverse the first `n` bits. -/
def revB (n : ℕ) (x : Bits) : Bits := fun q => if q < n then x (n - 1 - q) else x q

theorem swaps_fold (n k : ℕ) (hk : k ≤ n / 2) (ψ : State) (x : Bits) :
    (List.range k).foldl (fun ψ i => pull (swapMap i (n - 1 - i)) ψ) ψ x
      = ψ (fun q => if q < n ∧ (q < k ∨ n - 1 - q < k) then x (n - 1 - q) else x q) := by
  induction k generalizing x with
  | zero => simp
  | succ k ih =>
    rw [List.range_succ, List.foldl_append, List.foldl_cons, List.foldl_nil, pull, ih (by omega)]
    congr 1
    funext q
    have hs : ∀ q, swapMap k (n - 1 - k) x q
        = if q = n - 1 - k then x k else if q = k then x (n - 1 - k) else x q := by
      intro q
      unfold swapMap
      by_cases h1 : q = n - 1 - k
      · rw [if_pos h1, h1, Function.update_self]
      · rw [if_neg h1, Function.update_of_ne h1]
        by_cases h2 : q = k
        · rw [if_pos h2, h2, Function.update_self]
        · rw [if_neg h2, Function.update_of_ne h2]
    by_cases hq : q < n
    · by_cases h1 : q < k ∨ n - 1 - q < k
      · rw [if_pos ⟨hq, h1⟩, if_pos ⟨hq, by omega⟩, hs, if_neg (by omega), if_neg (by omega)]
      · rw [if_neg (fun h => h1 h.2), hs]
        by_cases h2 : q = n - 1 - k
        · rw [if_pos h2, if_pos ⟨hq, by omega⟩]
          congr 1; omega
        · rw [if_neg h2]
          by_cases h3 : q = k
          · rw [if_pos h3, if_pos ⟨hq, by omega⟩, h3]
          · rw [if_neg h3, if_neg (by omega)]
    · rw [if_neg (by omega), if_neg (by omega), hs, if_neg (by omega), if_neg (by omega)]

theorem swaps_rev (n : ℕ) (ψ : State) :
    (List.range (n / 2)).foldl (fun ψ i => pull (swapMap i (n - 1 - i)) ψ) ψ = pull (revB n) ψ := by
  funext x
  rw [swaps_fold n _ le_rfl, pull]
  congr 1
  funext q
  unfold revB
  by_cases hq : q < n
  · rw [if_pos hq]
    by_cases h : q < n / 2 ∨ n - 1 - q < n / 2
    · rw [if_pos ⟨hq, h⟩]
    · rw [if_neg (fun h' => h h'.2)]
      congr 1; omega
  · rw [if_neg (fun h => hq h.1), if_neg hq]

/-- The inner sums differ by multiples of `2π`. -/
theorem inner_phase (n i : ℕ) (hi : i < n) (x : Bits) : ∃ K : ℕ,
    (2 * Real.pi * (bigEndian n x * 2 ^ (n - 1 - i)) / 2 ^ n : ℝ)
      = (∑ d ∈ Finset.range (i + 1), bitv (revB n x d) * (Real.pi / 2 ^ (i - d))) + K * (2 * Real.pi) := by
  have hb : (bigEndian n x : ℝ) = ∑ d ∈ Finset.range n, (bitv (revB n x d) : ℝ) * 2 ^ d := by
    unfold bigEndian
    push_cast
    rw [← Finset.sum_range_reflect]
    refine Finset.sum_congr rfl fun d hd => ?_
    have hd' := Finset.mem_range.1 hd
    unfold revB
    rw [if_pos hd', show n - 1 - (n - 1 - d) = d by omega]
  have key : ∀ m, ∃ K : ℕ, (∑ d ∈ Finset.range (i + 1 + m), (bitv (revB n x d) : ℝ) * 2 ^ d)
      = (∑ d ∈ Finset.range (i + 1), (bitv (revB n x d) : ℝ) * 2 ^ d) + K * 2 ^ (i + 1) := by
    intro m
    induction m with
    | zero => exact ⟨0, by simp⟩
    | succ m ih =>
      obtain ⟨K, hK⟩ := ih
      refine ⟨K + bitv (revB n x (i + 1 + m)) * 2 ^ m, ?_⟩
      rw [← Nat.add_assoc, Finset.sum_range_succ, hK]
      push_cast
      rw [pow_add]
      ring
  obtain ⟨K, hK⟩ := key (n - (i + 1))
  rw [show i + 1 + (n - (i + 1)) = n by omega] at hK
  refine ⟨K, ?_⟩
  rw [hb, hK]
  have hn : (2 : ℝ) ^ n = 2 ^ (n - 1 - i) * 2 ^ (i + 1) := by
    rw [← pow_add]; congr 1; omega
  have h1 : (∑ d ∈ Finset.range (i + 1), (bitv (revB n x d) : ℝ) * (Real.pi / 2 ^ (i - d)))
      = Real.pi / 2 ^ i * ∑ d ∈ Finset.range (i + 1), (bitv (revB n x d) : ℝ) * 2 ^ d := by
    rw [Finset.mul_sum]
    refine Finset.sum_congr rfl fun d hd => ?_
    have hd' := Finset.mem_range.1 hd
    have : (2 : ℝ) ^ i = 2 ^ (i - d) * 2 ^ d := by rw [← pow_add]; congr 1; omega
    rw [this]
    field_simp
  rw [h1, hn, pow_succ]
  field_simp

theorem qph_rev (n : ℕ) (x y : Bits) :
    cis (qph n (revB n x) y) = cis (2 * Real.pi * (bigEndian n x * bigEndian n y) / 2 ^ n) := by
  have e : (2 * Real.pi * (bigEndian n x * bigEndian n y) / 2 ^ n : ℝ)
      = ∑ i ∈ Finset.range n, (bitv (y i) : ℝ) * (2 * Real.pi * (bigEndian n x * 2 ^ (n - 1 - i)) / 2 ^ n) := by
    rw [show (bigEndian n y : ℝ) = ∑ i ∈ Finset.range n, (bitv (y i) : ℝ) * 2 ^ (n - 1 - i) by
      unfold bigEndian; push_cast; rfl]
    rw [Finset.mul_sum, Finset.mul_sum, div_eq_mul_inv, Finset.sum_mul]
    refine Finset.sum_congr rfl fun i _ => ?_
    ring
  rw [e, qph, cis_sum, cis_sum]
  refine Finset.prod_congr rfl fun i hi => ?_
  obtain ⟨K, hK⟩ := inner_phase n i (Finset.mem_range.1 hi) x
  rw [hK, mul_add, cis_add]
  have : cis ((bitv (y i) : ℝ) * (K * (2 * Real.pi))) = 1 := by
    rw [← mul_assoc, ← Nat.cast_mul]; exact cis_nat _
  rw [this, mul_one]

theorem sumB_rev_base (n : ℕ) {f : Bits → ℂ} {s s' : Bits} (h : ∀ q, n ≤ q → s q = s' q) :
    sumB n f s = sumB n f s' := by
  rw [sumB_eq, sumB_eq]
  refine Finset.sum_congr rfl fun t _ => ?_
  congr 1
  funext q
  unfold fill
  by_cases hq : q < n
  · rw [dif_pos hq, dif_pos hq]
  · rw [dif_neg hq, dif_neg hq]; exact h q (by omega)

/-- The rounds compute the transform with the output in reversed order. -/
theorem rounds_dft (n : ℕ) (ψ : State) :
    pull (revB n) ((List.range n).foldl (fun ψ i => roundF i ψ) ψ) = dft n ψ := by
  funext x
  rw [pull, rounds_fold, dft]
  congr 1
  rw [sumB_rev_base n (s := revB n x) (s' := x) (fun q hq => by unfold revB; rw [if_neg (by omega)])]
  apply sumB_congr
  intro z _
  rw [qph_rev]

theorem qft_spec (n : ℕ) : ActsL (createQFT n false) (dft n) := by
  have h := actsL_append (actsL_flatMap (List.range n) fun i _ => acts_round i)
    (actsL_map (List.range (n / 2)) fun i _ => acts_swap i (n - 1 - i))
  have e : (fun ψ => (List.range (n / 2)).foldl (fun ψ i => pull (swapMap i (n - 1 - i)) ψ)
      ((List.range n).foldl (fun ψ i => roundF i ψ) ψ)) = dft n := by
    funext ψ
    rw [swaps_rev, rounds_dft]
  rw [e] at h
  unfold createQFT
  simpa using h

theorem revB_revB (n : ℕ) (x : Bits) : revB n (revB n x) = x := by
  funext q
  unfold revB
  by_cases hq : q < n
  · rw [if_pos hq, if_pos (by omega)]; congr 1; omega
  · rw [if_neg hq, if_neg hq]

/-- The measured version: the state is projected on the outcomes; the outcome of qubit `i` goes to
bit `n - 1 - i`. -/
theorem qft_measured (n : ℕ) (c : Cfg) : ∃ c', run (createQFT n true) c = some c' ∧
    (∀ x, c'.st x = if ∀ i < n, x i = c.orc i then dft n c.st (revB n x) else 0) ∧
    ∀ i < n, c'.mem (n - 1 - i) = c.orc i := by
  obtain ⟨c', h1, h2, h3, -, -⟩ := run_measures n (fun i => i) (fun i => n - 1 - i)
    (c.mapSt fun ψ => (List.range n).foldl (fun ψ i => roundF i ψ) ψ)
  refine ⟨c', ?_, fun x => ?_, h3 (fun i hi j hj h => by omega)⟩
  · unfold createQFT
    rw [run_append, actsL_flatMap (List.range n) (fun i _ => acts_round i), Option.bind_some]
    exact h1
  · rw [h2, ← rounds_dft, pull, revB_revB]
    rfl

end MQT.Alg
