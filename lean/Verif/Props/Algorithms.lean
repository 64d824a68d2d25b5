/-
Circuits generated by `src/algorithms`: GHZ (C49), Bernstein-Vazirani (C50), QFT (C51), W state (C52),
Grover (C53, C72), phase estimation (C54, C73).
-/
import Verif.Alg.GHZ
import Verif.Alg.BV
import Verif.Alg.QFT
import Verif.Alg.IterativeQFT
import Verif.Alg.WState
import Verif.Alg.Grover
import Verif.Alg.QPE
import Verif.Alg.Simulated
import Verif.Props.Canonical

set_option autoImplicit false

noncomputable section

open Classical
open Function (update)

namespace MQT.Alg

open MQT.IR MQT.Opt MQT.Sim MQT.DD

/-! ### C49 -/

/-- **C49.** For every `n ≥ 1` the GHZ circuit maps `|0…0⟩` to `(|0…0⟩ + |1…1⟩)/√2`. -/
theorem c49_ghz (n : ℕ) (hn : 0 < n) : ∃ ops f, createGHZState n = .ok ops ∧ ActsL ops f ∧
    ∀ x : Bits, f (ket0 n) x =
      if (∀ q < n, x q = false) ∨ (∀ q < n, x q = true) then (r2 : ℂ) else 0 :=
  ghz_spec n hn

/-- **C49.** No circuit is generated for zero qubits. -/
theorem c49_zero_qubits : createGHZState 0 = .throw := rfl

/-- **C49.** Simulating the GHZ circuit from `|0…0⟩` gives the very diagram that `makeGHZState`
builds. -/
theorem c49_simulated (n : ℕ) (hn : 0 < n) : ∃ ops e0 e, createGHZState n = .ok ops ∧
    makeZeroState n n 0 = .ok e0 ∧ simulate n ops (idPerm n) (idPerm n) 0 e0 = .ok e ∧
    makeGHZState n n = .ok e := by
  obtain ⟨ops, f, h1, h2, h3⟩ := ghz_spec n hn
  have hg : GoodL (fun q => q < n) ops := by
    unfold createGHZState at h1
    rw [if_neg (by omega)] at h1
    obtain rfl := ok_inj h1
    rw [goodL_iff]
    intro o ho
    simp only [List.mem_cons, List.mem_map, List.mem_range] at ho
    rcases ho with rfl | ⟨i, hi, rfl⟩
    · exact good_gate rfl rfl (by omega)
    · exact good_cgate rfl rfl (by omega) (by omega) (by omega)
  obtain ⟨e0, e, k1, k2, k3, k4⟩ := simulate_ident hg h2
  obtain ⟨e', m1, m2, m3⟩ := c42_ghz_state n n hn le_rfl
  have : e = e' := vecan_inj k3 m2 fun z => by rw [k4, h3, m3]
  subst this
  exact ⟨ops, e0, e, h1, k1, k2, m1⟩

/-- Three qubits: amplitude `√2/2` at `|111⟩`, none at `|011⟩`. -/
example : ∃ ops f, createGHZState 3 = .ok ops ∧ ActsL ops f ∧ f (ket0 3) (fun _ => true) = r2 ∧
    f (ket0 3) (fun q => decide (q < 2)) = 0 := by
  obtain ⟨ops, f, h1, h2, h3⟩ := c49_ghz 3 (by omega)
  refine ⟨ops, f, h1, h2, ?_, ?_⟩
  · rw [h3, if_pos (.inr fun _ _ => rfl)]
  · rw [h3, if_neg]
    rintro (h | h)
    · have := h 0 (by omega); simp at this
    · have := h 2 (by omega); simp at this

/-! ### C50 -/

/-- **C50.** The Bernstein-Vazirani circuit, run on `|0…0⟩` with any sequence of measurement outcomes:
bit `i` holds outcome `i`, and the state is the basis state with the hidden string in the data qubits
if the outcomes are the hidden string, and the zero vector (an impossible sequence) otherwise.
Missing from C50: more than 4096 qubits, where the generator throws (`c50_too_long`). -/
theorem c50_bernstein_vazirani_partial (s : ℕ → Bool) (n : ℕ) (hn : n ≤ 4096) (mem orc : ℕ → Bool) :
    ∃ ops c', createBernsteinVazirani s n = .ok ops ∧
      run ops ⟨ket0 (n + 1), mem, orc⟩ = some c' ∧ (∀ i < n, c'.mem i = orc i) ∧
      ∀ x : Bits, c'.st x = if (∀ i < n, orc i = s i) ∧ x 0 = true ∧ ∀ i < n, x (i + 1) = s i
        then 1 else 0 := by
  obtain ⟨c', h1, h2, h3⟩ := bv_spec s n mem orc
  refine ⟨bvOps s n, c', ?_, h1, h2, h3⟩
  unfold createBernsteinVazirani bvBits
  rw [if_neg (by omega)]

/-- **C50.** Longer strings than the bit set holds are rejected. -/
theorem c50_too_long (s : ℕ → Bool) (n : ℕ) (hn : 4096 < n) : createBernsteinVazirani s n = .throw ∧
    createIterativeBernsteinVazirani s n = .throw := by
  unfold createBernsteinVazirani createIterativeBernsteinVazirani bvBits
  rw [if_pos hn, if_pos hn]
  exact ⟨rfl, rfl⟩

/-- **C50.** Without a length the circuit covers every set bit of the hidden string. -/
theorem c50_length (s : ℕ → Bool) (i : ℕ) (hi : i < 4096) (h : s i = true) :
    i < mostSignificantBit s + 1 := Nat.lt_succ_of_le (msb_spec s i hi h)

/-- **C50.** The iterative version: outcome `2 i` is that of the `i`-th measurement, outcome `2 i + 1`
that of the reset following it. -/
theorem c50_iterative (s : ℕ → Bool) (n : ℕ) (h0 : 0 < n) (hn : n ≤ 4096) (mem orc : ℕ → Bool) :
    ∃ ops c', createIterativeBernsteinVazirani s n = .ok ops ∧
      run ops ⟨ket0 2, mem, orc⟩ = some c' ∧ (∀ i < n, c'.mem i = orc (2 * i)) ∧
      ∀ x : Bits, c'.st x = if (∀ i < n, orc (2 * i) = s i) ∧ (∀ i < n - 1, orc (2 * i + 1) = s i) ∧
        x 0 = true ∧ x 1 = s (n - 1) then 1 else 0 := by
  obtain ⟨c', h1, h2, h3⟩ := iter_spec s n h0 mem orc
  refine ⟨iterativeBVOps s n, c', ?_, h1, h2, h3⟩
  unfold createIterativeBernsteinVazirani bvBits
  rw [if_neg (by omega)]

/-- The string 101: outcomes 101 leave amplitude 1, outcomes 111 are impossible. -/
example : ∃ ops c d, createBernsteinVazirani (fun i => i == 0 || i == 2) 3 = .ok ops ∧
    run ops ⟨ket0 4, fun _ => false, fun i => i == 0 || i == 2⟩ = some c ∧ c.mem 2 = true ∧
    c.st (fun q => q == 0 || q == 1 || q == 3) = 1 ∧
    run ops ⟨ket0 4, fun _ => false, fun _ => true⟩ = some d ∧ ∀ x, d.st x = 0 := by
  obtain ⟨ops, c, h1, h2, h3, h4⟩ := c50_bernstein_vazirani_partial (fun i => i == 0 || i == 2) 3 (by omega)
    (fun _ => false) (fun i => i == 0 || i == 2)
  obtain ⟨ops', d, k1, k2, -, k4⟩ := c50_bernstein_vazirani_partial (fun i => i == 0 || i == 2) 3 (by omega)
    (fun _ => false) (fun _ => true)
  rw [h1] at k1
  obtain rfl := ok_inj k1
  refine ⟨ops, c, d, h1, h2, by rw [h3 2 (by omega)]; rfl, ?_, k2, fun x => ?_⟩
  · rw [h4, if_pos]
    refine ⟨fun _ _ => rfl, rfl, fun i hi => ?_⟩
    obtain rfl | rfl | rfl : i = 0 ∨ i = 1 ∨ i = 2 := by omega
    all_goals rfl
  · rw [k4, if_neg]
    rintro ⟨h, -⟩
    have := h 1 (by omega)
    simp at this

/-! ### C51 -/

/-- **C51.** `createQFT(n, false)` is the discrete Fourier transform of dimension `2^n`, qubit 0 being
the most significant bit on both sides.
Missing from C51: the output permutation the circuit declares, which reverses the result again (`c51_reported_not_transform`). -/
theorem c51_qft_partial (n : ℕ) : ActsL (createQFT n false) (dft n) := qft_spec n

/-- **C51.** On the basis state with number `k` every amplitude `l` is `exp (2π i k l / 2^n) / √2^n`. -/
theorem c51_basis (n : ℕ) (k x : Bits) :
    dft n (ketB n k) x = (r2 : ℂ) ^ n * cis (2 * Real.pi * (bigEndian n x * bigEndian n k) / 2 ^ n) := by
  unfold dft
  congr 1
  have e : ∀ y : Bits, cis (2 * Real.pi * (bigEndian n x * bigEndian n y) / 2 ^ n) * ketB n k y
      = if ∀ q < n, k q = y q then cis (2 * Real.pi * (bigEndian n x * bigEndian n k) / 2 ^ n) else 0 := by
    intro y
    unfold ketB
    have hiff : (∀ q < n, y q = k q) ↔ ∀ q < n, k q = y q :=
      ⟨fun h q hq => (h q hq).symm, fun h q hq => (h q hq).symm⟩
    by_cases h : ∀ q < n, y q = k q
    · rw [if_pos h, if_pos (hiff.1 h), mul_one]
      have : bigEndian n y = bigEndian n k := by
        unfold bigEndian
        exact Finset.sum_congr rfl fun i hi => by rw [h i (Finset.mem_range.1 hi)]
      rw [this]
    · rw [if_neg h, if_neg (fun h' => h (hiff.2 h')), mul_zero]
  simp only [e]
  exact sumB_pick n k (fun _ => cis (2 * Real.pi * (bigEndian n x * bigEndian n k) / 2 ^ n)) x

/-- **C51.** With measurements the qubits are not exchanged; the outcome of qubit `i` is stored in bit
`n - 1 - i`, and the state is the projection of the reversed transform on the outcomes. -/
theorem c51_measured (n : ℕ) (c : Cfg) : ∃ c', run (createQFT n true) c = some c' ∧
    (∀ x, c'.st x = if ∀ i < n, x i = c.orc i then dft n c.st (revB n x) else 0) ∧
    ∀ i < n, c'.mem (n - 1 - i) = c.orc i := qft_measured n c

/-- **C51.** The iterative version, run on `|0⟩`: outcome `2 i` (round `i`) is stored in bit
`n - 1 - i`, and every sequence of outcomes has amplitude `√2/2 ^ n`, as in `createQFT` from `|0…0⟩`
(outcome `2 i + 1` belongs to the reset and has to repeat it). -/
theorem c51_iterative (n : ℕ) (hn : 0 < n) (mem orc : ℕ → Bool) :
    ∃ c', run (createIterativeQFT n) ⟨ket0 1, mem, orc⟩ = some c' ∧
      (∀ i < n, c'.mem (n - 1 - i) = orc (2 * i)) ∧
      (∀ x : Bits, c'.st x = if (∀ i < n - 1, orc (2 * i + 1) = orc (2 * i)) ∧
        x 0 = orc (2 * (n - 1)) then (r2 : ℂ) ^ n else 0) ∧ ∀ x, dft n (ket0 n) x = (r2 : ℂ) ^ n := by
  obtain ⟨c', h1, h2, h3⟩ := iqft_spec n hn mem orc
  refine ⟨c', h1, h2, h3, fun x => ?_⟩
  have : (ket0 n : State) = ketB n (fun _ => false) := rfl
  rw [this, c51_basis]
  have h0 : bigEndian n (fun _ => false) = 0 := by
    unfold bigEndian bitv
    simp
  rw [h0]
  simp [cis_zero]

/-- **C51.** A round of the iterative version applies, to any state of its qubit, the phase that the
QFT circuit applies to qubit `i` when qubits `0, …, i-1` (in order) were measured as the bits stored so
far. -/
theorem c51_iterative_round (n i : ℕ) (v : Bool → ℂ) (mem orc : ℕ → Bool) :
    run ((List.range i).map (fun j => iqftRotation n i (j + 1))) ⟨fun x => v (x 0), mem, orc⟩
      = some ⟨fun x => (if x 0 then
          cis (∑ j ∈ Finset.range i, bitv (mem (n - 1 - j)) * (Real.pi / 2 ^ (i - j))) else 1) * v (x 0),
          mem, orc⟩ := iqft_rotations n i i le_rfl v mem orc

/-- The reversed layout is a permutation of the qubits. -/
theorem qftOutput_target (n : ℕ) : Target (idPerm n) (qftOutput n) := by
  have hm : ∀ x ∈ qftOutput n, x.1 < n ∧ x.2 = n - 1 - x.1 := by
    intro x hx
    simp only [qftOutput, List.mem_map, List.mem_range] at hx
    obtain ⟨q, hq, rfl⟩ := hx
    exact ⟨hq, rfl⟩
  refine ⟨?_, ?_, fun x hx => ?_, fun x hx => ?_⟩
  · have : (qftOutput n).map Prod.fst = List.range n := by
      rw [qftOutput, List.map_map]; exact List.map_id _
    rw [this]; exact List.nodup_range
  · have : (qftOutput n).map Prod.snd = (List.range n).map fun i => n - 1 - i := by
      rw [qftOutput, List.map_map]; rfl
    rw [this]
    refine List.Nodup.map_on ?_ List.nodup_range
    intro a ha b hb h
    have := List.mem_range.1 ha
    have := List.mem_range.1 hb
    omega
  · exact ⟨x.1, by rw [idPerm_lookup, if_pos (hm x hx).1]⟩
  · refine ⟨x.2, ?_⟩
    have := hm x hx
    rw [idPerm_lookup, if_pos (by omega)]

/-- **C51.** What the simulator reports for `createQFT(n, false)`: the generator both exchanges the
qubits and declares a reversed output permutation, so the reported state is the transform with its
bits reversed. -/
theorem c51_reported (n : ℕ) {e : VEdge} (he : VECan n e) : ∃ e',
    simulate n (createQFT n false) (idPerm n) (qftOutput n) 0 e = .ok e' ∧ VECan n e' ∧
    ∀ z, e'.vec z = dft n e.vec (revB n z) := by
  have hD : (fun q => ∃ v, (idPerm n).lookup q = some v) = fun q => q < n := by
    funext q
    rw [idPerm_lookup]
    apply propext
    constructor
    · rintro ⟨v, hv⟩; split_ifs at hv with h; exact h
    · intro h; exact ⟨q, if_pos h⟩
  have hg : GoodL (fun q => q < n) (createQFT n false) := by
    rw [goodL_iff]
    intro o ho
    simp only [createQFT, Bool.false_eq_true, if_false, List.mem_append, List.mem_flatMap, List.mem_range,
      qftRound, List.mem_map, List.mem_singleton] at ho
    rcases ho with ⟨i, hi, ⟨d, hd, rfl⟩ | rfl⟩ | ⟨i, hi, rfl⟩
    · unfold qftRotation
      simp only
      split_ifs
      · exact good_cgate rfl rfl (by omega) (by omega) (by omega)
      · exact good_cgate rfl rfl (by omega) (by omega) (by omega)
      · exact good_cgate rfl rfl (by omega) (by omega) (by omega)
    · exact good_gate rfl rfl hi
    · exact good_swapG (by omega) (by omega) (by omega)
  obtain ⟨e', G, τ, k1, k2, k3, k4, k5, -, k7⟩ := c46_simulate_partial (n := n) (σ := 1)
    (idPerm_layout n)
    (fun k v h => by
      rw [idPerm_lookup] at h
      split_ifs at h
      cases h; rfl)
    (qftOutput_target n) (ops := createQFT n false) (by rw [hD]; exact hg) 0 he e.vec
    (fun z => rfl)
  refine ⟨e', k1, k2, fun z => ?_⟩
  obtain rfl := k3.unique (qft_spec n)
  rw [k7 z, cis_eq, cis_zero, one_mul]
  congr 1
  funext k
  unfold revB
  by_cases hk : k < n
  · rw [if_pos hk]
    exact congrArg z (k4 (k, n - 1 - k) (by simp [qftOutput, hk]))
  · rw [if_neg hk]
    exact congrArg z (k5 k (by rw [idPerm_lookup, if_neg hk]))

/-- **C51, disagreement.** So the state reported for two qubits is not the transform: from `|01⟩`
(qubit 1 set) the amplitude at qubit 1 set should be `i/2`, and `-1/2` is reported. -/
theorem c51_reported_not_transform : ∃ e e', makeBasisState 2 2 [false, true] 0 = .ok e ∧
    simulate 2 (createQFT 2 false) (idPerm 2) (qftOutput 2) 0 e = .ok e' ∧
    e'.vec (unitB 1) = -1 / 2 ∧ dft 2 e.vec (unitB 1) = Complex.I / 2 := by
  obtain ⟨e, h1, h2, h3⟩ := c42_basis_state 2 2 0 [false, true] (by omega) (by simp)
  obtain ⟨e', k1, k2, k3⟩ := c51_reported 2 (h2 rfl)
  have hv : e.vec = ketB 2 (unitB 1) := by
    funext x
    rw [h3, ketB]
    apply if_congr _ rfl rfl
    constructor
    · intro h q hq
      obtain rfl | rfl : q = 0 ∨ q = 1 := by omega
      · have := h 0 (by omega); simpa [unitB] using this
      · have := h 1 (by omega); simpa [unitB] using this
    · intro h q hq
      obtain rfl | rfl : q = 0 ∨ q = 1 := by omega
      · have := h 0 (by omega); simpa [unitB] using this
      · have := h 1 (by omega); simpa [unitB] using this
  have b1 : bigEndian 2 (unitB 1) = 1 := by decide +kernel
  have b2 : bigEndian 2 (revB 2 (unitB 1)) = 2 := by decide +kernel
  have hr : (r2 : ℂ) ^ 2 = 1 / 2 := by rw [pow_two]; exact r2_sq'
  refine ⟨e, e', h1, k1, ?_, ?_⟩
  · rw [k3, hv, c51_basis, b1, b2, hr]
    have : (2 * Real.pi * ((2 : ℕ) * (1 : ℕ)) / 2 ^ 2 : ℝ) = Real.pi := by push_cast; ring
    rw [this, cis_pi]
    norm_num
  · rw [hv, c51_basis, b1, hr]
    have : (2 * Real.pi * ((1 : ℕ) * (1 : ℕ)) / 2 ^ 2 : ℝ) = Real.pi / 2 := by push_cast; ring
    rw [this, cis_half]
    apply Complex.ext <;> simp

/-! ### C52 -/

theorem weight_one_iff (n : ℕ) (x : Bits) :
    weight n x = 1 ↔ ∃ p < n, ∀ q < n, x q = decide (q = p) := by
  unfold weight
  rw [Finset.card_eq_one]
  constructor
  · rintro ⟨p, hp⟩
    have hm : ∀ q, (q < n ∧ x q = true) ↔ q = p := fun q => by
      have := Finset.ext_iff.1 hp q
      simpa using this
    refine ⟨p, ((hm p).2 rfl).1, fun q hq => ?_⟩
    by_cases h : q = p
    · rw [decide_eq_true h]; exact ((hm q).2 h).2
    · rw [decide_eq_false h]
      exact Bool.eq_false_iff.2 fun h' => h ((hm q).1 ⟨hq, h'⟩)
  · rintro ⟨p, hp, h⟩
    refine ⟨p, Finset.ext fun q => ?_⟩
    simp only [Finset.mem_filter, Finset.mem_range, Finset.mem_singleton]
    constructor
    · rintro ⟨hq, hx⟩
      rw [h q hq] at hx
      exact of_decide_eq_true hx
    · rintro rfl
      exact ⟨hp, by rw [h _ hp]; simp⟩

/-- **C52.** For every `n ≥ 1` the W-state circuit maps `|0…0⟩` to the equal superposition of the basis
states with exactly one qubit set. -/
theorem c52_w_state (n : ℕ) (hn : 0 < n) : ∃ ops f, createWState n = .ok ops ∧ ActsL ops f ∧
    ∀ x : Bits, f (ket0 n) x = if ∃ p < n, ∀ q < n, x q = decide (q = p)
      then (√(1 / (n : ℝ)) : ℂ) else 0 := w_spec n hn

/-- **C52.** No circuit is generated for zero qubits. -/
theorem c52_zero_qubits : createWState 0 = .throw := rfl

/-- **C52.** Simulating the circuit gives the diagram that `makeWState` builds. -/
theorem c52_simulated (n : ℕ) (hn : 0 < n) : ∃ ops e0 e, createWState n = .ok ops ∧
    makeZeroState n n 0 = .ok e0 ∧ simulate n ops (idPerm n) (idPerm n) 0 e0 = .ok e ∧
    makeWState n n = .ok e := by
  obtain ⟨ops, f, h1, h2, h3⟩ := w_spec n hn
  have hg : GoodL (fun q => q < n) ops := by
    unfold createWState at h1
    rw [if_neg (by omega)] at h1
    obtain rfl := ok_inj h1
    rw [goodL_iff]
    intro o ho
    simp only [List.mem_append, List.mem_flatMap, List.mem_map, List.mem_range, fGate,
      List.mem_cons, List.not_mem_nil, or_false] at ho
    rcases ho with (rfl | ⟨i, hi, rfl | rfl | rfl⟩) | ⟨i, hi, rfl⟩
    · exact good_gate rfl rfl (by omega)
    · exact good_gate rfl rfl (by omega)
    · exact good_cgate rfl rfl (by omega) (by omega) (by omega)
    · exact good_gate rfl rfl (by omega)
    · exact good_cgate rfl rfl (by omega) (by omega) (by omega)
  obtain ⟨e0, e, k1, k2, k3, k4⟩ := simulate_ident hg h2
  obtain ⟨e', m1, m2, m3⟩ := c42_w_state n n hn le_rfl
  have : e = e' := vecan_inj k3 m2 fun z => by
    rw [k4, h3, m3]
    simp only [weight_one_iff]
    rw [Real.sqrt_div zero_le_one, Real.sqrt_one]
  subst this
  exact ⟨ops, e0, e, h1, k1, k2, m1⟩

/-- Four qubits: amplitude 1/2 at `|0100⟩`. -/
example : ∃ ops f, createWState 4 = .ok ops ∧ ActsL ops f ∧ f (ket0 4) (unitB 2) = 1 / 2 := by
  obtain ⟨ops, f, h1, h2, h3⟩ := c52_w_state 4 (by omega)
  refine ⟨ops, f, h1, h2, ?_⟩
  rw [h3, if_pos ⟨2, by omega, fun _ _ => rfl⟩]
  have : √(1 / ((4 : ℕ) : ℝ)) = 1 / 2 := by
    rw [Real.sqrt_eq_iff_mul_self_eq (by positivity) (by positivity)]
    norm_num
  rw [this]
  norm_num

/-! ### C53, C72 -/

/-- **C53.** After `k` iterations the marked element `w` has amplitude `(-1)^k sin ((2k+1) a)` with
`sin a = 2^(-n/2)`; the other `2^n - 1` elements share `(-1)^k cos ((2k+1) a)` equally.
Missing from C53: more than 128 qubits, where the generator throws (`c53_too_long`); these lists of operations are what it emits otherwise. -/
theorem c53_grover_partial (w : ℕ → Bool) (n : ℕ) (hn : 0 < n) (k : ℕ) : ∃ F,
    ActsL (groverInit n ++ groverIterations w n k) F ∧ ∃ a : ℝ, Real.sin a = (√2 / 2) ^ n ∧ 0 ≤ Real.cos a ∧
      ∀ x : Bits, F (ket0 (n + 1)) x = if x n = true then
        (if ∀ q < n, x q = w q then (((-1) ^ k * Real.sin ((2 * k + 1) * a) : ℝ) : ℂ)
          else (((-1) ^ k * Real.cos ((2 * k + 1) * a) / √(2 ^ n - 1) : ℝ) : ℂ)) else 0 := by
  obtain ⟨F, h1, h2⟩ := grover_iterations w n hn k
  refine ⟨F, h1, groverAngle n, sin_groverAngle n, ?_, fun x => by rw [h2]; rfl⟩
  rw [cos_groverAngle]
  exact mul_nonneg (r2_pow_le n).1.le (Real.sqrt_nonneg _)

/-- **C53.** The complete circuit: the outcomes are stored in order; the branch of outcomes `y` has
the amplitude above. -/
theorem c53_measured (w : ℕ → Bool) (n : ℕ) (hn : 0 < n) (h : n ≤ 128) (mem orc : ℕ → Bool) :
    ∃ ops c', createGrover n w = .ok ops ∧ run ops ⟨ket0 (n + 1), mem, orc⟩ = some c' ∧
      (∀ i < n, c'.mem i = orc i) ∧
      ∀ x : Bits, c'.st x = if (∀ i < n, x i = orc i) ∧ x n = true then
        (if ∀ i < n, orc i = w i then (groverA n (numberOfIterations n) : ℂ)
          else (groverB n (numberOfIterations n) : ℂ)) else 0 := by
  obtain ⟨F, h1, h2⟩ := grover_iterations w n hn (numberOfIterations n)
  obtain ⟨c', k1, k2, k3, -, -⟩ := run_measures n (fun i => i) (fun i => i)
    ⟨groverS n w (groverA n (numberOfIterations n)) (groverB n (numberOfIterations n)), mem, orc⟩
  refine ⟨_, c', if_neg (by unfold groverBits; omega), ?_, k3 (fun i _ j _ h => h), fun x => ?_⟩
  · rw [run_append, h1, Option.bind_some]
    simp only [Cfg.mapSt]
    rw [h2]
    exact k1
  · rw [k2]
    by_cases hx : ∀ i < n, x i = orc i
    · rw [if_pos hx]
      have e1 : (∀ q < n, x q = w q) ↔ ∀ i < n, orc i = w i :=
        ⟨fun h i hi => by rw [← hx i hi, h i hi], fun h i hi => by rw [hx i hi, h i hi]⟩
      have e2 : ((∀ i < n, x i = orc i) ∧ x n = true) ↔ x n = true := ⟨fun h => h.2, fun h => ⟨hx, h⟩⟩
      rw [if_congr e2 rfl rfl]
      show (if x n = true then (if ∀ q < n, x q = w q then _ else _) else _) = _
      rw [if_congr e1 rfl rfl]
    · rw [if_neg hx, if_neg (fun h => hx h.1)]

/-- **C53.** More data qubits than the bit set holds are rejected. -/
theorem c53_too_long (w : ℕ → Bool) (n : ℕ) (h : 128 < n) : createGrover n w = .throw := if_pos h

/-- **C72.** The number of iterations the generator chooses finds the marked element with probability
at least one half, for every number of qubits.
Missing from C72: more than 128 qubits, where the generator throws (`c53_too_long`). -/
theorem c72_success_partial (w : ℕ → Bool) (n : ℕ) (hn : 0 < n) : ∃ F,
    ActsL (groverInit n ++ groverIterations w n (numberOfIterations n)) F ∧
      ∀ x : Bits, x n = true → (∀ q < n, x q = w q) → 1 / 2 ≤ Complex.normSq (F (ket0 (n + 1)) x) := by
  obtain ⟨F, h1, h2⟩ := grover_iterations w n hn (numberOfIterations n)
  refine ⟨F, h1, fun x hx hw => ?_⟩
  rw [h2, groverS, if_pos hx, if_pos hw, Complex.normSq_ofReal, ← pow_two]
  exact grover_success n hn

/-- Two qubits: one iteration finds the marked element with certainty. -/
example : numberOfIterations 2 = 1 ∧ groverA 2 1 = -1 := by
  refine ⟨rfl, ?_⟩
  have h : groverAngle 2 = Real.pi / 6 := by
    have : r2 ^ 2 = 1 / 2 := by
      have := Real.mul_self_sqrt (show (0 : ℝ) ≤ 2 by norm_num)
      unfold r2; nlinarith
    rw [groverAngle, this, ← Real.sin_pi_div_six, Real.arcsin_sin] <;> linarith [Real.pi_pos]
  rw [groverA, h, show (2 * ((1 : ℕ) : ℝ) + 1) * (Real.pi / 6) = Real.pi / 2 by push_cast; ring,
    Real.sin_pi_div_two]
  norm_num

/-! ### C54, C73 -/

/-- **C54.** If `lam` (in units of π) is `θ / 2^(n-1)` up to a multiple of 2, the circuit measures
exactly the bits of `θ`: that branch has amplitude 1, every other branch is impossible.
Missing from C54: precisions above 64, where a shift is undefined. -/
theorem c54_exact_partial (lam : ℝ) (n : ℕ) (hn : n ≤ 64) (θ : ℕ) (k : ℤ) (h : 2 ^ (n - 1) * lam = θ + 2 ^ n * k)
    (mem orc : ℕ → Bool) :
    ∃ ops c', createQPE lam n = .ok ops ∧ run ops ⟨ket0 (n + 1), mem, orc⟩ = some c' ∧
      (∀ i < n, c'.mem i = orc i) ∧
      ∀ x : Bits, c'.st x = if (x 0 = true ∧ ∀ i < n, x (i + 1) = orc i) ∧ ∀ i < n, orc i = θ.testBit i
        then 1 else 0 := by
  obtain ⟨ops, c', h1, h2, h3, h4⟩ := qpe_spec lam n hn mem orc
  refine ⟨ops, c', h1, h2, h3, fun x => ?_⟩
  rw [h4, qpeAmp_exact h]
  split_ifs <;> first | rfl | (exfalso; tauto)

/-- **C54.** In particular for the phases that the generator draws in its exact mode. -/
theorem c54_generated (n : ℕ) (h0 : 0 < n) (hn : n ≤ 64) (θ : ℕ) (hθ : θ < 2 ^ n) (mem orc : ℕ → Bool) :
    ∃ ops c', createQPE (exactPhase n θ) n = .ok ops ∧ run ops ⟨ket0 (n + 1), mem, orc⟩ = some c' ∧
      (∀ i < n, c'.mem i = orc i) ∧
      ∀ x : Bits, c'.st x = if (x 0 = true ∧ ∀ i < n, x (i + 1) = orc i) ∧ ∀ i < n, orc i = θ.testBit i
        then 1 else 0 :=
  c54_exact_partial _ n hn θ 0 (by rw [exactPhase_eq n θ hθ h0]; simp) mem orc

/-- **C54.** The iterative circuit has, for every phase and every sequence of outcomes, the same
amplitude as the plain one. -/
theorem c54_iterative (lam : ℝ) (n : ℕ) (h0 : 0 < n) (hn : n ≤ 64) (mem y : ℕ → Bool) :
    ∃ ops ops' c c', createQPE lam n = .ok ops ∧ createIterativeQPE lam n = .ok ops' ∧
      run ops ⟨ket0 (n + 1), mem, y⟩ = some c ∧ run ops' ⟨ket0 2, mem, fun i => y (i / 2)⟩ = some c' ∧
      (∀ i < n, c'.mem i = c.mem i) ∧
      ∃ z : ℂ, (∀ x : Bits, c.st x = if x 0 = true ∧ ∀ i < n, x (i + 1) = y i then z else 0) ∧
        ∀ x : Bits, c'.st x = if x 0 = true ∧ x 1 = y (n - 1) then z else 0 := by
  obtain ⟨ops, c, h1, h2, h3, h4⟩ := qpe_spec lam n hn mem y
  obtain ⟨ops', c', k1, k2, k3, k4⟩ := iqpe_spec lam n h0 hn mem (fun i => y (i / 2))
  have e : ∀ i, y (2 * i / 2) = y i := fun i => by rw [Nat.mul_div_cancel_left i (by omega)]
  refine ⟨ops, ops', c, c', h1, k1, h2, k2, fun i hi => ?_, qpeAmp lam n y n, h4, fun x => ?_⟩
  · rw [k3 i hi, h3 i hi, e]
  · rw [k4]
    have hq : qpeAmp lam n (fun i => y (2 * i / 2)) n = qpeAmp lam n y n := qpeAmp_congr fun i _ => e i
    rw [hq, e]
    apply if_congr _ rfl rfl
    refine ⟨fun h => h.2, fun h => ⟨fun i _ => ?_, h⟩⟩
    show y ((2 * i + 1) / 2) = y (2 * i / 2)
    congr 1; omega

/-- **C54.** Outcomes of the reset that differ from the measurement before it are impossible. -/
theorem c54_iterative_exact (lam : ℝ) (n : ℕ) (h0 : 0 < n) (hn : n ≤ 64) (θ : ℕ) (k : ℤ)
    (h : 2 ^ (n - 1) * lam = θ + 2 ^ n * k) (mem orc : ℕ → Bool) :
    ∃ ops c', createIterativeQPE lam n = .ok ops ∧ run ops ⟨ket0 2, mem, orc⟩ = some c' ∧
      (∀ i < n, c'.mem i = orc (2 * i)) ∧
      ((∃ i < n, orc (2 * i) ≠ θ.testBit i) → ∀ x, c'.st x = 0) ∧
      ((∃ i < n - 1, orc (2 * i + 1) ≠ orc (2 * i)) → ∀ x, c'.st x = 0) := by
  obtain ⟨ops', c', k1, k2, k3, k4⟩ := iqpe_spec lam n h0 hn mem orc
  refine ⟨ops', c', k1, k2, k3, ?_, ?_⟩
  · rintro ⟨i, hi, hne⟩ x
    rw [k4, qpeAmp_exact h, if_neg (c := ∀ i < n, orc (2 * i) = θ.testBit i) (fun hh => hne (hh i hi))]
    simp
  · rintro ⟨i, hi, hne⟩ x
    rw [k4, if_neg (fun hh => hne (hh.1 i hi))]

/-- **C73.** For an arbitrary phase, an outcome `y` whose distance from the exact value
(`2^(n-1) lam`, cyclically) is at most one half is measured with probability at least `4/π²`. -/
theorem c73_nearest (lam : ℝ) (n : ℕ) (hn : n ≤ 64) (y : ℕ) (k : ℤ)
    (h : |2 ^ (n - 1) * lam - y - 2 ^ n * k| ≤ 1 / 2) (mem : ℕ → Bool) :
    ∃ ops c', createQPE lam n = .ok ops ∧ run ops ⟨ket0 (n + 1), mem, y.testBit⟩ = some c' ∧
      (∀ i < n, c'.mem i = y.testBit i) ∧ ∃ p : ℝ, 4 / Real.pi ^ 2 ≤ p ∧
      ∀ x : Bits, Complex.normSq (c'.st x)
        = if x 0 = true ∧ ∀ i < n, x (i + 1) = y.testBit i then p else 0 := by
  obtain ⟨ops, c', h1, h2, h3, h4⟩ := qpe_spec lam n hn mem y.testBit
  refine ⟨ops, c', h1, h2, h3, Complex.normSq (qpeAmp lam n y.testBit n), ?_, fun x => ?_⟩
  · set δ := 2 ^ (n - 1) * lam - y - 2 ^ n * k with hδ
    rw [qpeAmp_near (δ := δ) (k := k) (by rw [hδ]; ring)]
    apply prod_cos_ge
    rw [abs_mul, abs_of_pos Real.pi_pos]
    nlinarith [Real.pi_pos]
  · rw [h4]
    split_ifs
    · rfl
    · exact Complex.normSq_zero

/-- **C73.** The phases drawn in the inexact mode lie halfway between two outcomes; both neighbours are
measured with probability at least `4/π²`. -/
theorem c73_inexact (n : ℕ) (h0 : 0 < n) (hn : n ≤ 64) (m : ℕ) (hm : 2 * m + 1 < 2 ^ (n + 1)) (mem : ℕ → Bool) :
    (∃ ops c' p, createQPE (inexactPhase n (2 * m + 1)) n = .ok ops ∧
      run ops ⟨ket0 (n + 1), mem, m.testBit⟩ = some c' ∧ 4 / Real.pi ^ 2 ≤ p ∧
      ∀ x : Bits, Complex.normSq (c'.st x)
        = if x 0 = true ∧ ∀ i < n, x (i + 1) = m.testBit i then p else 0) ∧
    (∃ ops c' p, createQPE (inexactPhase n (2 * m + 1)) n = .ok ops ∧
      run ops ⟨ket0 (n + 1), mem, (m + 1).testBit⟩ = some c' ∧ 4 / Real.pi ^ 2 ≤ p ∧
      ∀ x : Bits, Complex.normSq (c'.st x)
        = if x 0 = true ∧ ∀ i < n, x (i + 1) = (m + 1).testBit i then p else 0) := by
  have e := inexactPhase_eq n (2 * m + 1) hm
  have e' : 2 ^ (n - 1) * inexactPhase n (2 * m + 1) = m + 1 / 2 := by
    obtain ⟨j, rfl⟩ : ∃ j, n = j + 1 := ⟨n - 1, by omega⟩
    rw [pow_succ] at e
    push_cast at e
    rw [show j + 1 - 1 = j by omega]
    linarith
  constructor
  · obtain ⟨ops, c', h1, h2, -, p, h3, h4⟩ := c73_nearest (inexactPhase n (2 * m + 1)) n hn m 0 (by
      rw [e', show (m : ℝ) + 1 / 2 - m - 2 ^ n * ((0 : ℤ) : ℝ) = 1 / 2 by push_cast; ring, abs_of_pos (by norm_num)]) mem
    exact ⟨ops, c', p, h1, h2, h3, h4⟩
  · obtain ⟨ops, c', h1, h2, -, p, h3, h4⟩ := c73_nearest (inexactPhase n (2 * m + 1)) n hn (m + 1) 0 (by
      rw [e', show (m : ℝ) + 1 / 2 - ((m + 1 : ℕ) : ℝ) - 2 ^ n * ((0 : ℤ) : ℝ) = -(1 / 2) by push_cast; ring,
        abs_neg, abs_of_pos (by norm_num)]) mem
    exact ⟨ops, c', p, h1, h2, h3, h4⟩

/-- Three bits, `θ = 5`: the outcome 101 is certain. -/
example (mem : ℕ → Bool) : ∃ ops c', createQPE (5 / 4) 3 = .ok ops ∧
    run ops ⟨ket0 4, mem, fun i => i == 0 || i == 2⟩ = some c' ∧
    c'.st (fun q => q == 0 || q == 1 || q == 3) = 1 := by
  obtain ⟨ops, c', h1, h2, -, h4⟩ := c54_exact_partial (5 / 4) 3 (by omega) 5 0 (by norm_num) mem
    (fun i => i == 0 || i == 2)
  refine ⟨ops, c', h1, h2, ?_⟩
  rw [h4, if_pos]
  refine ⟨⟨rfl, fun i hi => ?_⟩, fun i hi => ?_⟩ <;>
    (obtain rfl | rfl | rfl : i = 0 ∨ i = 1 ∨ i = 2 := by omega) <;> rfl

end MQT.Alg
