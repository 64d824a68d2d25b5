/-
Property C111: the fidelity of measurement outcomes (`fidelityOfMeasurementOutcomes`).
-/
import Verif.DD.Fidelity

set_option autoImplicit false

noncomputable section

open Classical

namespace MQT.DD

open MQT.IR (Bits)

/-- **C111.** Without a permutation: the sum of the products of the magnitudes of the amplitudes and the square roots of the
probabilities of the same outcomes.
Missing from C111: permutations that are changed by counting the qubits from the other end (`c111_swap`, `c111_drop`); a state
without qubits (`c111_terminal`). -/
theorem c111_plain_partial (P : ℕ → Option ℝ) {n : ℕ} (hn : n ≠ 0) {e : VEdge} (h : VOk n e) :
    fidelityOutcomes e P [] = some (∑ k ∈ Finset.range (2 ^ n), ‖e.vec (bitsOf k)‖ * rootOf P k) :=
  fidelityOutcomes_spec P [] hn h id fun _ => rfl

/-- **C111.** With a permutation that is the same when physical and logical qubits are counted from the other end, the outcomes
are those with the qubits renamed. -/
theorem c111_mirror_partial (P : ℕ → Option ℝ) {n : ℕ} (hn : n ≠ 0) {e : VEdge} (h : VOk n e) {perm : List (ℕ × ℕ)}
    (hp : PermOk n perm) (hne : perm ≠ []) (hm : (mirror n perm.length perm).Perm perm) :
    fidelityOutcomes e P perm =
      some (∑ k ∈ Finset.range (2 ^ n), ‖e.vec (bitsOf k)‖ * rootOf P (outcome perm (bitsOf k))) := by
  rw [fidelityOutcomes_spec P perm hn h _ fun i => outcomeIndex_spec hp hne i]
  congr 1
  apply Finset.sum_congr rfl
  intro k _
  congr 2
  exact (hm.map _).sum_eq

/-- **C111.** In general, the qubits are counted from the other end. -/
theorem c111_general (P : ℕ → Option ℝ) {n : ℕ} (hn : n ≠ 0) {e : VEdge} (h : VOk n e) {perm : List (ℕ × ℕ)}
    (hp : PermOk n perm) (hne : perm ≠ []) : fidelityOutcomes e P perm =
      some (∑ k ∈ Finset.range (2 ^ n), ‖e.vec (bitsOf k)‖ * rootOf P (outcome (mirror n perm.length perm) (bitsOf k))) :=
  fidelityOutcomes_spec P perm hn h _ fun i => outcomeIndex_spec hp hne i

/-- **C111.** The identity on all qubits is the same as no permutation. -/
theorem c111_identity (P : ℕ → Option ℝ) {n : ℕ} (hn : n ≠ 0) {e : VEdge} (h : VOk n e) :
    fidelityOutcomes e P ((List.range n).map fun q => (q, q)) =
      some (∑ k ∈ Finset.range (2 ^ n), ‖e.vec (bitsOf k)‖ * rootOf P k) := by
  have hl : ((List.range n).map fun q => (q, q)).length = n := by simp
  have hp : PermOk n ((List.range n).map fun q => (q, q)) := by
    refine ⟨?_, ?_, ?_⟩
    · rw [List.map_map]
      exact (List.nodup_range).map fun a b h => h
    · intro a ha
      obtain ⟨q, hq, rfl⟩ := List.mem_map.1 ha
      exact List.mem_range.1 hq
    · intro a ha
      obtain ⟨q, hq, rfl⟩ := List.mem_map.1 ha
      rw [hl]
      exact List.mem_range.1 hq
  have hne : ((List.range n).map fun q => (q, q)) ≠ [] := by
    intro hc
    rw [List.map_eq_nil_iff, List.range_eq_nil] at hc
    exact hn hc
  have hinj : Function.Injective fun q : ℕ => (q, q) := fun a b h => congrArg Prod.fst h
  rw [c111_mirror_partial P hn h hp hne ?_]
  · congr 1
    apply Finset.sum_congr rfl
    intro k hk
    congr 2
    have key : ∀ m k, k < 2 ^ m → outcome ((List.range m).map fun q => (q, q)) (bitsOf k) = k := by
      have hmod : ∀ m k, outcome ((List.range m).map fun q => (q, q)) (bitsOf k) = k % 2 ^ m := by
        intro m k
        induction m with
        | zero => simp [outcome, Nat.mod_one]
        | succ m ih =>
          rw [Nat.mod_pow_succ, ← ih]
          unfold outcome
          rw [List.range_succ, List.map_append, List.map_append, List.sum_append]
          simp [bitsOf, mul_comm, Nat.toNat_testBit]
      intro m k hk
      rw [hmod, Nat.mod_eq_of_lt hk]
    exact key n k (Finset.mem_range.1 hk)
  · rw [hl]
    apply (List.perm_ext_iff_of_nodup ?_ ?_).2
    · intro a
      unfold mirror
      rw [List.map_map]
      simp only [List.mem_map, List.mem_range, Function.comp]
      constructor
      · rintro ⟨q, hq, rfl⟩
        exact ⟨n - 1 - q, by omega, rfl⟩
      · rintro ⟨q, hq, rfl⟩
        exact ⟨n - 1 - q, by omega, by
          have : n - 1 - (n - 1 - q) = q := by omega
          rw [this]⟩
    · unfold mirror
      rw [List.map_map]
      apply List.Nodup.map_on ?_ List.nodup_range
      intro a ha b hb he
      have := congrArg Prod.fst he
      simp only [Function.comp] at this
      have := List.mem_range.1 ha
      have := List.mem_range.1 hb
      omega
    · exact List.nodup_range.map hinj

/-! ### Examples -/

/-- A level with the bit `b`. -/
def bitNode (v : ℕ) (b : Bool) (p : VNode) : VNode := .node v (fun c => if c = b then 1 else 0) fun c => if c = b then p else .term

theorem bitNode_can {v : ℕ} (b : Bool) {p : VNode} (h : VCan v p) : VCan (v + 1) (bitNode v b p) := by
  refine ⟨rfl, ?_, fun c => ?_⟩
  · cases b <;> simp [vtop, varg]
  · by_cases hc : c = b
    · simp [hc, h]
    · simp [hc]

/-- The state with qubit 0 in state 1 and the others, up to qubit 2, in state 0. -/
def ket1 : VEdge := ⟨bitNode 2 false (bitNode 1 false (bitNode 0 true .term)), 1⟩

theorem ket1_ok : VOk 3 ket1 := fun _ => bitNode_can _ (bitNode_can _ (bitNode_can _ (show VCan 0 .term from rfl)))

theorem ket1_vec (x : Bits) : ket1.vec x = if x 2 = false ∧ x 1 = false ∧ x 0 = true then 1 else 0 := by
  unfold ket1 Edge.vec bitNode
  cases h2 : x 2 <;> cases h1 : x 1 <;> cases h0 : x 0 <;> simp [vval, h0, h1, h2]

theorem ket1_sum (L : ℕ → ℝ) : ∑ k ∈ Finset.range (2 ^ 3), ‖ket1.vec (bitsOf k)‖ * L k = L 1 := by
  rw [Finset.sum_eq_single_of_mem 1 (by decide)]
  · rw [ket1_vec, if_pos (by decide)]
    simp
  · intro k hk hne
    have all : ∀ k < 2 ^ 3, k ≠ 1 → ¬ (bitsOf k 2 = false ∧ bitsOf k 1 = false ∧ bitsOf k 0 = true) := by decide
    rw [ket1_vec, if_neg (all k (Finset.mem_range.1 hk) hne)]
    simp

/-- Outcome 1 with probability 1/4. -/
example : fidelityOutcomes ket1 (fun i => if i = 1 then some (1 / 4) else none) [] = some (1 / 2) := by
  rw [c111_plain_partial _ (by norm_num) ket1_ok, ket1_sum]
  congr 1
  simp only [rootOf, if_true, Option.getD_some]
  rw [show (1 / 4 : ℝ) = (1 / 2) ^ 2 by norm_num, Real.sqrt_sq (by norm_num)]

/-- An outcome that is not given. -/
example : fidelityOutcomes ket1 (fun i => if i = 2 then some 1 else none) [] = some 0 := by
  rw [c111_plain_partial _ (by norm_num) ket1_ok, ket1_sum]
  simp [rootOf]

/-- The reversal of all qubits. -/
example (P : ℕ → Option ℝ) : fidelityOutcomes ket1 P [(0, 2), (1, 1), (2, 0)] = some (rootOf P 4) := by
  rw [c111_mirror_partial _ (by norm_num) ket1_ok ⟨by decide, by decide, by decide⟩ (by decide) (by decide), ket1_sum fun k => rootOf P (outcome _ (bitsOf k))]
  rfl

/-- **C111 fails.** When the qubits 0 and 1 are exchanged, the outcome with logical qubit 1 in state 1 is not found. -/
theorem c111_swap : VOk 3 ket1 ∧ PermOk 3 [(0, 1), (1, 0), (2, 2)] ∧ ∀ P,
    ∑ k ∈ Finset.range (2 ^ 3), ‖ket1.vec (bitsOf k)‖ * rootOf P (outcome [(0, 1), (1, 0), (2, 2)] (bitsOf k)) = rootOf P 2 ∧
    fidelityOutcomes ket1 P [(0, 1), (1, 0), (2, 2)] = some (rootOf P 1) := by
  have hp : PermOk 3 [(0, 1), (1, 0), (2, 2)] := ⟨by decide, by decide, by decide⟩
  refine ⟨ket1_ok, hp, fun P => ⟨?_, ?_⟩⟩
  · rw [ket1_sum fun k => rootOf P (outcome _ (bitsOf k))]
    rfl
  · rw [c111_general P (by norm_num) ket1_ok hp (by decide), ket1_sum fun k => rootOf P (outcome _ (bitsOf k))]
    rfl

/-- **C111 fails.** When only qubit 0 is kept, the outcome of qubit 2 is used. -/
theorem c111_drop : VOk 3 ket1 ∧ PermOk 3 [(0, 0)] ∧ ∀ P,
    ∑ k ∈ Finset.range (2 ^ 3), ‖ket1.vec (bitsOf k)‖ * rootOf P (outcome [(0, 0)] (bitsOf k)) = rootOf P 1 ∧
    fidelityOutcomes ket1 P [(0, 0)] = some (rootOf P 0) := by
  have hp : PermOk 3 [(0, 0)] := ⟨by decide, by decide, by decide⟩
  refine ⟨ket1_ok, hp, fun P => ⟨?_, ?_⟩⟩
  · rw [ket1_sum fun k => rootOf P (outcome _ (bitsOf k))]
    rfl
  · rw [c111_general P (by norm_num) ket1_ok hp (by decide), ket1_sum fun k => rootOf P (outcome _ (bitsOf k))]
    rfl

/-- **C111 fails.** For a state without qubits the level of the null pointer is read. -/
theorem c111_terminal (P : ℕ → Option ℝ) : VOk 0 Edge.one ∧ fidelityOutcomes Edge.one P [] = none := by
  refine ⟨fun _ => rfl, ?_⟩
  unfold fidelityOutcomes
  rw [if_neg (by simp)]
  rfl

end MQT.DD
