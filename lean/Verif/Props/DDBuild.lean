/-
Gate, state and matrix constructors of the DD package and the functions that read
entries back (C41, C42, C43, C68).
-/
import Verif.DD.Gate
import Verif.DD.States
import Verif.DD.Canonical

set_option autoImplicit false

noncomputable section

open Classical
open Function (update)

namespace MQT.DD

open MQT.IR (Bits State Ctrl Mat1 Mat2 app1 app2 ctl Sat r2)

/-! ### C41: gates -/

/-- **C41.** For every 2x2 matrix, every set of positive and negative controls and every
target, `makeGateDD` yields a DD of the shape the package maintains whose entry in row `a`
and column `b` is that of the controlled gate. -/
theorem c41_gate_matrix (n : ℕ) (M : Mat1) (l : List Ctrl) (t : ℕ)
    (hs : l.Pairwise (fun c d => c.1 < d.1)) (hn : ∀ c ∈ l, c.1 < n) (ht : t < n)
    (hl : ∀ c ∈ l, c.1 ≠ t) :
    ∃ e, makeGateDD n M l t = some e ∧ MECan n e ∧ ∀ a b : Bits,
      e.mat n a b =
        if ∀ q < n, q ≠ t → a q = b q then
          if SatL l a then M (a t) (b t) else if a t = b t then 1 else 0
        else 0 := by
  obtain ⟨e, h1, h2, h3⟩ := makeGateDD_rep n M l t hs hn ht hl
  refine ⟨e, h1, h2, fun a b => ?_⟩
  rw [h3.val]
  have : AgreeOff {t} n a b ↔ ∀ q < n, q ≠ t → a q = b q := Iff.rfl
  simp only [this]

/-- **C41.** Applied to a state, that matrix is the controlled gate of the reference
semantics. -/
theorem c41_gate_action (n : ℕ) (M : Mat1) (l : List Ctrl) (t : ℕ)
    (hs : l.Pairwise (fun c d => c.1 < d.1)) (hn : ∀ c ∈ l, c.1 < n) (ht : t < n)
    (hl : ∀ c ∈ l, c.1 ≠ t) (cs : Finset Ctrl) (hcs : ∀ c, c ∈ cs ↔ c ∈ l) :
    ∃ e, makeGateDD n M l t = some e ∧ MECan n e ∧ ∀ (ψ : State) (a : Bits),
      matVec n (e.mat n) ψ a = ctl cs (app1 M t) ψ a := by
  obtain ⟨e, h1, h2, h3⟩ := makeGateDD_rep n M l t hs hn ht hl
  refine ⟨e, h1, h2, fun ψ a => ?_⟩
  have hsat : Sat cs a ↔ SatL l a := by
    unfold Sat SatL
    simp only [hcs]
  unfold matVec ctl
  have e1 : ∀ z, e.mat n a z * ψ z = if AgreeOff {t} n a z then
      (if SatL l a then M (a t) (z t) else if a t = z t then 1 else 0) * ψ z else 0 := by
    intro z
    rw [h3.val]
    split_ifs <;> simp
  simp only [e1]
  rw [sumB_agree1 n t ht]
  simp only [Function.update_self]
  by_cases h : Sat cs a
  · rw [if_pos h]
    simp only [if_pos (hsat.1 h)]
    rfl
  · rw [if_neg h]
    simp only [if_neg (fun h' => h (hsat.2 h'))]
    rw [Finset.sum_eq_single (a t)]
    · simp
    · intro b _ hb; rw [if_neg (Ne.symm hb), zero_mul]
    · intro h'; exact absurd (Finset.mem_univ _) h'

/-- **C41.** The same for two-qubit gates, with either order of the targets and controls
below, between and above them. -/
theorem c41_two_qubit_matrix (n : ℕ) (M : Mat2) (l : List Ctrl) (t0 t1 : ℕ)
    (hs : l.Pairwise (fun c d => c.1 < d.1)) (hn : ∀ c ∈ l, c.1 < n) (ht0 : t0 < n) (ht1 : t1 < n)
    (h01 : t0 ≠ t1) (hl0 : ∀ c ∈ l, c.1 ≠ t0) (hl1 : ∀ c ∈ l, c.1 ≠ t1) :
    ∃ e, makeTwoQubitGateDD n M l t0 t1 = some e ∧ MECan n e ∧ ∀ a b : Bits,
      e.mat n a b =
        if ∀ q < n, q ≠ t0 → q ≠ t1 → a q = b q then
          if SatL l a then M (a t0, a t1) (b t0, b t1)
          else if a t0 = b t0 ∧ a t1 = b t1 then 1 else 0
        else 0 := by
  obtain ⟨e, h1, h2, h3⟩ := makeTwoQubitGateDD_rep n M l t0 t1 hs hn ht0 ht1 h01 hl0 hl1
  refine ⟨e, h1, h2, fun a b => ?_⟩
  rw [h3.val]
  have : AgreeOff {t0, t1} n a b ↔ ∀ q < n, q ≠ t0 → q ≠ t1 → a q = b q := by
    unfold AgreeOff
    simp only [Set.mem_insert_iff, Set.mem_singleton_iff, not_or, and_imp, ne_eq]
  simp only [this]

/-- **C41.** Action of the two-qubit gate DD on a state. -/
theorem c41_two_qubit_action (n : ℕ) (M : Mat2) (l : List Ctrl) (t0 t1 : ℕ)
    (hs : l.Pairwise (fun c d => c.1 < d.1)) (hn : ∀ c ∈ l, c.1 < n) (ht0 : t0 < n) (ht1 : t1 < n)
    (h01 : t0 ≠ t1) (hl0 : ∀ c ∈ l, c.1 ≠ t0) (hl1 : ∀ c ∈ l, c.1 ≠ t1)
    (cs : Finset Ctrl) (hcs : ∀ c, c ∈ cs ↔ c ∈ l) :
    ∃ e, makeTwoQubitGateDD n M l t0 t1 = some e ∧ MECan n e ∧ ∀ (ψ : State) (a : Bits),
      matVec n (e.mat n) ψ a = ctl cs (app2 M t0 t1) ψ a := by
  obtain ⟨e, h1, h2, h3⟩ := makeTwoQubitGateDD_rep n M l t0 t1 hs hn ht0 ht1 h01 hl0 hl1
  refine ⟨e, h1, h2, fun ψ a => ?_⟩
  have hsat : Sat cs a ↔ SatL l a := by
    unfold Sat SatL
    simp only [hcs]
  unfold matVec ctl
  have e1 : ∀ z, e.mat n a z * ψ z = if AgreeOff {t0, t1} n a z then
      (if SatL l a then M (a t0, a t1) (z t0, z t1)
        else if a t0 = z t0 ∧ a t1 = z t1 then 1 else 0) * ψ z else 0 := by
    intro z
    rw [h3.val]
    split_ifs <;> simp
  simp only [e1]
  rw [sumB_agree2 n t0 t1 ht0 ht1 h01]
  simp only [Function.update_self, Function.update_of_ne h01]
  by_cases h : Sat cs a
  · rw [if_pos h]
    simp only [if_pos (hsat.1 h)]
    rfl
  · rw [if_neg h]
    simp only [if_neg (fun h' => h (hsat.2 h'))]
    rw [Finset.sum_eq_single (a t0, a t1)]
    · simp
    · intro b _ hb
      rw [if_neg, zero_mul]
      rintro ⟨hb1, hb2⟩
      exact hb (Prod.ext hb1.symm hb2.symm)
    · intro h'; exact absurd (Finset.mem_univ _) h'

/-- **C41.** A gate on a qubit the package does not have is rejected. -/
theorem c41_out_of_range (n : ℕ) (M : Mat1) (l : List Ctrl) (t : ℕ)
    (h : n ≤ t ∨ ∃ c ∈ l, n ≤ c.1) (hn : 0 < n) : makeGateDD n M l t = none := by
  unfold makeGateDD
  rw [if_pos]
  rcases h with h | ⟨c, hc, h⟩
  · right; omega
  · left
    rw [List.any_eq_true]
    exact ⟨c, hc, by simp; omega⟩

/-- The Pauli-X matrix. -/
def xMat : Mat1 := fun r c => if r = c then 0 else 1

/-- An X gate with a negative control below and a positive control above the target flips
qubit 1 exactly if qubit 0 is 0 and qubit 2 is 1. -/
example : ∃ e, makeGateDD 3 xMat [(0, false), (2, true)] 1 = some e ∧
    e.mat 3 (bitsOf 4) (bitsOf 6) = 1 ∧ e.mat 3 (bitsOf 4) (bitsOf 4) = 0 ∧
    e.mat 3 (bitsOf 5) (bitsOf 7) = 0 ∧ e.mat 3 (bitsOf 5) (bitsOf 5) = 1 := by
  obtain ⟨e, h1, _, h3⟩ := c41_gate_matrix 3 xMat [(0, false), (2, true)] 1
    (by simp) (by simp) (by norm_num) (by simp)
  refine ⟨e, h1, ?_, ?_, ?_, ?_⟩ <;> rw [h3, if_pos (by decide)]
  · rw [if_pos (by simp [SatL, bitsOf]; decide)]; exact if_neg (by decide)
  · rw [if_pos (by simp [SatL, bitsOf]; decide)]; simp [xMat]
  · rw [if_neg (by simp [SatL, bitsOf]), if_neg (by decide)]
  · rw [if_neg (by simp [SatL, bitsOf]), if_pos rfl]

/-- A SWAP of qubits 0 and 2 of three qubits. -/
example : ∃ e, makeTwoQubitGateDD 3 (fun r c => if r = (c.2, c.1) then 1 else 0) [] 0 2 = some e ∧
    e.mat 3 (bitsOf 1) (bitsOf 4) = 1 ∧ e.mat 3 (bitsOf 1) (bitsOf 1) = 0 := by
  obtain ⟨e, h1, _, h3⟩ := c41_two_qubit_matrix 3 (fun r c => if r = (c.2, c.1) then 1 else 0) [] 0 2
    (by simp) (by simp) (by norm_num) (by norm_num) (by norm_num) (by simp) (by simp)
  refine ⟨e, h1, ?_, ?_⟩ <;> rw [h3, if_pos (by decide), if_pos (by simp [SatL])] <;>
    simp [bitsOf] <;> decide

/-! ### C42: states -/

/-- **C42.** `makeZeroState` is `|0…0⟩` on the qubits `start … start+n-1`; for `start = 0` it
has the shape of every other state of `n` qubits. -/
theorem c42_zero_state (nq n start : ℕ) (h : n + start ≤ nq) :
    ∃ e, makeZeroState nq n start = .ok e ∧ (start = 0 → VECan n e) ∧ ∀ x : Bits,
      e.vec x = if ∀ q < n, x (start + q) = false then 1 else 0 := by
  unfold makeZeroState
  rw [if_neg (by omega), zeroLoop_eq n start .one rfl]
  obtain ⟨e, h1, h2, h3, h4⟩ := basisLoop6_spec (List.replicate (start + n) .zero) n start .one rfl (by simp)
  refine ⟨e, h1, fun h0 => ⟨one_nz h2, ?_⟩, fun x => ?_⟩
  · subst h0
    have := h4 (fun _ => rfl)
    rwa [Nat.zero_add] at this
  · rw [h3]
    have : ∀ q ∈ Finset.range n, ((List.replicate (start + n) BasisState.zero).getD (start + q) .zero).amp
        (x (start + q)) = if x (start + q) = false then 1 else 0 := by
      intro q hq
      rw [List.getD_eq_getElem?_getD, List.getElem?_replicate]
      cases x (start + q) <;> split_ifs <;> simp_all [BasisState.amp]
    rw [Finset.prod_congr rfl this, Finset.prod_ite_zero]
    simp [Edge.vec, vval]

/-- **C42.** `makeBasisState` on classical values is the basis state with those values,
provided the vector of values is long enough. -/
theorem c42_basis_state (nq n start : ℕ) (state : List Bool) (h : n + start ≤ nq)
    (hs : n + start ≤ state.length) :
    ∃ e, makeBasisState nq n state start = .ok e ∧ (start = 0 → VECan n e) ∧ ∀ x : Bits,
      e.vec x = if ∀ q < n, some (x (start + q)) = state[start + q]? then 1 else 0 := by
  unfold makeBasisState
  rw [if_neg (by omega), basisLoop_eq state n start .one rfl]
  obtain ⟨e, h1, h2, h3, h4⟩ := basisLoop6_spec
    (state.map fun b => if b then BasisState.one else .zero) n start .one rfl (by simp; omega)
  refine ⟨e, h1, fun h0 => ⟨one_nz h2, ?_⟩, fun x => ?_⟩
  · subst h0
    have := h4 (fun _ => rfl)
    rwa [Nat.zero_add] at this
  · rw [h3]
    have : ∀ q ∈ Finset.range n,
        ((state.map fun b => if b then BasisState.one else .zero).getD (start + q) .zero).amp
        (x (start + q)) = if some (x (start + q)) = state[start + q]? then 1 else 0 := by
      intro q hq
      have hq' := Finset.mem_range.1 hq
      have hlt : start + q < state.length := by omega
      rw [List.getD_eq_getElem?_getD, List.getElem?_map, List.getElem?_eq_getElem hlt]
      cases x (start + q) <;> cases state[start + q] <;> simp [BasisState.amp]
    rw [Finset.prod_congr rfl this, Finset.prod_ite_zero]
    simp [Edge.vec, vval]

/-- **C42.** `makeBasisState` on single-qubit basis states is their tensor product (although
the code drops the weight of the part built so far: it is always 1). -/
theorem c42_product_state (nq n start : ℕ) (state : List BasisState) (h : n + start ≤ nq)
    (hs : n + start ≤ state.length) :
    ∃ e, makeBasisState6 nq n state start = .ok e ∧ (start = 0 → VECan n e) ∧ ∀ x : Bits,
      e.vec x = ∏ q ∈ Finset.range n, (state.getD (start + q) .zero).amp (x (start + q)) := by
  unfold makeBasisState6
  rw [if_neg (by omega), if_neg (by omega)]
  obtain ⟨e, h1, h2, h3, h4⟩ := basisLoop6_spec state n start .one rfl (by omega)
  refine ⟨e, h1, fun h0 => ⟨one_nz h2, ?_⟩, fun x => ?_⟩
  · subst h0
    have := h4 (fun _ => rfl)
    rwa [Nat.zero_add] at this
  · rw [h3]; simp [Edge.vec, vval]

/-- **C42.** The size check of `makeBasisState` ignores `start`: a vector of `n` values is
accepted and then read out of bounds. -/
theorem c42_short_vector_undefined :
    makeBasisState6 2 1 [.plus] 1 = .ub ∧ makeBasisState 1 1 [] 0 = .ub := by
  constructor <;> simp [makeBasisState6, makeBasisState, basisLoop6, basisLoop]

/-- **C42.** `makeGHZState` is `(|0…0⟩ + |1…1⟩)/√2`. -/
theorem c42_ghz_state (nq n : ℕ) (hn : 0 < n) (h : n ≤ nq) :
    ∃ e, makeGHZState nq n = .ok e ∧ VECan n e ∧ ∀ x : Bits,
      e.vec x = if (∀ q < n, x q = false) ∨ (∀ q < n, x q = true) then (r2 : ℂ) else 0 := by
  obtain ⟨k, rfl⟩ : ∃ k, n = k + 1 := ⟨n - 1, by omega⟩
  unfold makeGHZState
  rw [if_neg (by omega), if_neg (by omega)]
  simp only [Nat.add_sub_cancel]
  obtain ⟨h1, h2, h3, h4, h5, h6⟩ := ghz_loop k
  generalize List.foldl _ _ (List.range k) = lr at h1 h2 h3 h4 h5 h6 ⊢
  have hr : (r2 : ℂ) ≠ 0 := by exact_mod_cast r2_pos.ne'
  rw [makeVE_eq (fun h0 => absurd h0 hr) (fun h0 => absurd h0 hr)]
  refine ⟨_, rfl, makeV_can (fun b => ?_), fun x => ?_⟩
  · cases b
    · exact fun _ => h3 (by rw [h1]; exact one_ne_zero)
    · exact fun _ => h4 (by rw [h2]; exact one_ne_zero)
  · rw [makeV_vec]
    have s1 : (∀ q < k + 1, x q = false) ↔ (∀ q < k, x q = false) ∧ x k = false :=
      Nat.forall_lt_succ_right
    have s2 : (∀ q < k + 1, x q = true) ↔ (∀ q < k, x q = true) ∧ x k = true :=
      Nat.forall_lt_succ_right
    have e5 := h5 x
    have e6 := h6 x
    simp only [Edge.vec, h1, h2, one_mul] at e5 e6
    simp only [s1, s2]
    cases hx : x k
    · simp only [pair, Bool.false_eq_true, if_false, Edge.vec, e5, and_true, and_false, or_false]
      by_cases hq : ∀ q < k, x q = false
      · rw [if_pos hq, if_pos hq, mul_one]
      · rw [if_neg hq, if_neg hq, mul_zero]
    · simp only [pair, if_true, Edge.vec, e6, Bool.true_eq_false, and_true, and_false, false_or]
      by_cases hq : ∀ q < k, x q = true
      · rw [if_pos hq, if_pos hq, mul_one]
      · rw [if_neg hq, if_neg hq, mul_zero]

/-- **C42.** `makeWState` is the equal superposition of the basis states with exactly one 1. -/
theorem c42_w_state (nq n : ℕ) (hn : 0 < n) (h : n ≤ nq) :
    ∃ e, makeWState nq n = .ok e ∧ VECan n e ∧ ∀ x : Bits,
      e.vec x = if weight n x = 1 then ((1 / √n : ℝ) : ℂ) else 0 := by
  unfold makeWState
  rw [if_neg (by omega), if_neg (by omega)]
  obtain ⟨h1, h2, _⟩ := w_loop n n le_rfl
  exact ⟨_, rfl, h1, h2⟩

/-- **C42.** `makeStateFromVector` represents the given vector, for every vector whose length
is a power of two. -/
theorem c42_from_vector (n : ℕ) (l : List ℂ) (hl : l.length = 2 ^ n) :
    ∃ e, makeStateFromVector l = .ok e ∧ VECan n e ∧
      ∀ i < 2 ^ n, e.vec (bitsOf i) = l.getD i 0 := by
  have hpos : 0 < 2 ^ n := by positivity
  have hne : l ≠ [] := fun h => by rw [h] at hl; simp at hl; omega
  have hpow : ¬ (l.length &&& (l.length - 1) ≠ 0) := by
    rw [not_not, Nat.and_sub_one_eq_zero_iff_isPowerOfTwo (by omega)]
    exact ⟨n, hl⟩
  unfold makeStateFromVector
  rw [if_neg hne, if_neg hpow]
  cases n with
  | zero =>
    rw [if_pos (by simpa using hl)]
    refine ⟨_, rfl, ⟨fun _ => rfl, fun _ => rfl⟩, fun i hi => ?_⟩
    obtain rfl : i = 0 := by omega
    simp [Edge.vec, vval]
  | succ n =>
    have h1 : l.length ≠ 1 := by rw [hl, pow_succ]; omega
    rw [if_neg h1, hl, Nat.log_pow (by norm_num), Nat.add_sub_cancel]
    obtain ⟨s1, s2⟩ := stateRec_spec n l hl
    exact ⟨_, rfl, s1.ok.lookup, fun i hi => by rw [lookup_vec, s2 i hi]⟩

/-- **C42.** Vectors of other lengths are rejected. -/
theorem c42_from_vector_rejects (l : List ℂ) (h0 : l ≠ []) (h : ∀ n, l.length ≠ 2 ^ n) :
    makeStateFromVector l = .throw := by
  unfold makeStateFromVector
  rw [if_neg h0, if_pos]
  intro h'
  rw [Nat.and_sub_one_eq_zero_iff_isPowerOfTwo (fun h => h0 (List.length_eq_zero_iff.1 h))] at h'
  obtain ⟨n, hn⟩ := h'
  exact h n hn

/-- **C42.** `getVector` returns the represented vector; thus writing a non-zero vector into
a DD and reading it back gives the same vector. -/
theorem c42_get_vector {n : ℕ} {e : VEdge} (h : VECan n e) (h0 : e.w ≠ 0) {thr : ℝ} (ht : thr ≤ 0) :
    getVector e thr = some ((List.range (2 ^ n)).map (fun i => e.vec (bitsOf i))) :=
  getVector_spec (h.2 h0) ht

/-- **C42.** Missing from C42: the zero vector, for which it is false (`c42_zero_vector_collapses`). -/
theorem c42_round_trip_partial (n : ℕ) (l : List ℂ) (hl : l.length = 2 ^ n) (hz : ∃ z ∈ l, z ≠ 0) {thr : ℝ}
    (ht : thr ≤ 0) : ∃ e, makeStateFromVector l = .ok e ∧ getVector e thr = some l := by
  obtain ⟨e, h1, h2, h3⟩ := c42_from_vector n l hl
  refine ⟨e, h1, ?_⟩
  have hw : e.w ≠ 0 := by
    intro hw
    obtain ⟨z, hz, hz0⟩ := hz
    obtain ⟨i, hi, rfl⟩ := List.getElem_of_mem hz
    apply hz0
    have := h3 i (by rw [← hl]; exact hi)
    rw [List.getD_eq_getElem _ _ hi] at this
    rw [← this]
    simp [Edge.vec, hw]
  rw [c42_get_vector h2 hw ht]
  congr 1
  apply list_ext_getD
  · simp [hl]
  · intro i hi
    have hi' : i < 2 ^ n := by simpa using hi
    rw [List.getD_eq_getElem _ _ hi, ← h3 i hi']
    simp

/-- **C42.** `getVector` of the zero vector has length 1 whatever the number of qubits. -/
theorem c42_zero_vector_collapses (n : ℕ) :
    ∃ e, makeStateFromVector (List.replicate (2 ^ n) 0) = .ok e ∧ getVector e 0 = some [0] := by
  obtain ⟨e, h1, h2, h3⟩ := c42_from_vector n (List.replicate (2 ^ n) 0) (by simp)
  refine ⟨e, h1, ?_⟩
  have hw : e.w = 0 := by
    by_contra hw
    obtain ⟨x, hx⟩ := VCan.nonzero (h2.2 hw)
    obtain ⟨i, hi, hix⟩ := exists_index n x
    apply hx
    have := h3 i hi
    rw [vec_congr h2.ok hix] at this
    simpa [Edge.vec, hw, List.getD_eq_getElem?_getD, hi] using this
  unfold getVector
  rw [h2.1 hw, hw]

/-- **C42.** A single amplitude. -/
theorem c42_get_value {n : ℕ} {e : VEdge} (h : VECan n e) {i : ℕ} (hi : i < 2 ^ n) :
    vGetValueByIndex e i = e.vec (bitsOf i) := vGetValueByIndex_spec h hi

example : ∃ e, makeStateFromVector [1, 0, 0, Complex.I] = .ok e ∧
    getVector e 0 = some [1, 0, 0, Complex.I] :=
  c42_round_trip_partial 2 _ rfl ⟨1, by simp, one_ne_zero⟩ le_rfl

/-! ### C43 and C68: matrices -/

/-- **C43.** `getMatrix` returns the represented matrix. -/
theorem c43_get_matrix {n : ℕ} {e : MEdge} (h : MECan n e) {thr : ℝ} (ht : thr ≤ 0) :
    getMatrix e n thr = some (tabulate (2 ^ n) (fun i j => e.mat n (bitsOf i) (bitsOf j))) :=
  getMatrix_spec h ht

/-- **C43 (partial).** A single entry read by `getValueByIndex` is that entry of the matrix,
for every DD whose root is not the terminal.  What is missing is false: see
`c43_terminal_wrong`. -/
theorem c43_get_value_partial {n : ℕ} {e : MEdge} (h : MECan n e) (hp : e.p ≠ .term) (i j : ℕ) :
    mGetValueByIndex e n i j = e.mat n (bitsOf i) (bitsOf j) := mGetValueByIndex_spec h hp i j

/-- **C43 fails** for multiples of the identity: the entry (0,1) of the one-qubit identity is
read as 1, while `getMatrix` returns the identity matrix. -/
theorem c43_terminal_wrong :
    mGetValueByIndex .one 1 0 1 = 1 ∧ getMatrix .one 1 0 = some [[1, 0], [0, 1]] := by
  refine ⟨rfl, ?_⟩
  rw [getMatrix_spec (e := .one) ⟨fun _ => rfl, fun _ => trivial⟩ le_rfl]
  simp [tabulate, List.range_succ, Edge.one, term_mat, bitsOf]

/-- **C68.** `makeDDFromMatrix` represents the given matrix. -/
theorem c68_from_matrix (n : ℕ) (m : List (List ℂ)) (hl : m.length = 2 ^ n)
    (hrow : ∀ row ∈ m, row.length = 2 ^ n) :
    ∃ e, makeDDFromMatrix m = .ok e ∧ MECan n e ∧
      ∀ i < 2 ^ n, ∀ j < 2 ^ n, e.mat n (bitsOf i) (bitsOf j) = matFun m (i, j) := by
  have hpos : 0 < 2 ^ n := by positivity
  cases m with
  | nil => simp at hl; omega
  | cons row rest =>
    have hr := hrow row List.mem_cons_self
    have hpow : ¬ ((row :: rest).length &&& ((row :: rest).length - 1) ≠ 0) := by
      rw [not_not, Nat.and_sub_one_eq_zero_iff_isPowerOfTwo (by omega)]
      exact ⟨n, hl⟩
    unfold makeDDFromMatrix
    simp only
    rw [if_neg hpow, if_neg (by rw [hl, hr]; simp)]
    cases n with
    | zero =>
      rw [if_pos (by simpa using hl)]
      refine ⟨_, rfl, ⟨fun _ => rfl, fun _ => trivial⟩, fun i hi j hj => ?_⟩
      obtain rfl : i = 0 := by omega
      obtain rfl : j = 0 := by omega
      simp [Edge.mat, mval, matFun]
    | succ n =>
      have h1 : (row :: rest).length ≠ 1 := by rw [hl, pow_succ]; omega
      obtain ⟨e, s1, s2, s3⟩ := matRec_spec (row :: rest) _ hl hrow n 0 0 (by simp) (by simp)
      rw [if_neg h1, hl, hr, Nat.log_pow (by norm_num), Nat.add_sub_cancel]
      simp only [Nat.zero_add] at s1 s3
      rw [s1]
      exact ⟨_, rfl, s2.ok.lookup, fun i hi j hj => by rw [lookup_mat, s3 i hi j hj]⟩

/-- **C68.** Writing a matrix into a DD and reading it back gives the same matrix. -/
theorem c68_round_trip (n : ℕ) (m : List (List ℂ)) (hl : m.length = 2 ^ n)
    (hrow : ∀ row ∈ m, row.length = 2 ^ n) {thr : ℝ} (ht : thr ≤ 0) :
    ∃ e, makeDDFromMatrix m = .ok e ∧ getMatrix e n thr = some m := by
  obtain ⟨e, h1, h2, h3⟩ := c68_from_matrix n m hl hrow
  refine ⟨e, h1, ?_⟩
  rw [getMatrix_spec h2 ht]
  congr 1
  exact (eq_tabulate hl hrow (fun i hi j hj => (h3 i hi j hj).symm)).symm

/-- **C68.** Only the first row is checked: a matrix with a shorter second row is read out of
bounds. -/
theorem c68_ragged_undefined (a b c : ℂ) : makeDDFromMatrix [[a, b], [c]] = .ub := by
  unfold makeDDFromMatrix
  simp only [List.length_cons, List.length_nil]
  norm_num
  have : matRec [[a, b], [c]] (Nat.log 2 2 - 1) 0 2 0 2 = none := by
    rw [show Nat.log 2 2 - 1 = 0 by decide]
    rw [matRec]
    have : collect (fun b' : RC => cell [[a, b], [c]] (0 + b'.1.toNat) (0 + b'.2.toNat)) = none := by
      unfold collect
      rw [dif_neg]
      intro h
      have := h (true, true)
      simp [cell] at this
    rw [this]; rfl
  rw [this]

example : ∃ e, makeDDFromMatrix [[0, 1], [1, 0]] = .ok e ∧ getMatrix e 1 0 = some [[0, 1], [1, 0]] :=
  c68_round_trip 1 _ rfl (by simp) le_rfl

end MQT.DD
