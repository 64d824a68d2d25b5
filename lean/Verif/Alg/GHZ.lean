/-
The GHZ circuit (`src/algorithms/GHZState.cpp` 18-30).
-/
import Verif.Alg.Common

set_option autoImplicit false

noncomputable section

open Function (update)

namespace MQT.Alg

open MQT.IR MQT.Opt MQT.Sim

/-- `createGHZState` (18-30): the operations of the circuit.  For zero qubits `nq - 1` wraps around
and the range check of `h` throws. -/
def createGHZState (nq : ℕ) : Res (List (Op ℝ)) :=
  if nq = 0 then .throw
  else
    let top := nq - 1
    .ok (gate .h top :: (List.range top).map fun i => cgate .x top i)

/-- The amplitudes after the Hadamard and `k` CNOTs. -/
theorem ghz_fold (top k : ℕ) (hk : k ≤ top) (x : Bits) :
    (List.range k).foldl (fun ψ i => pull (cxMap top i) ψ) (hadF top (ket0 (top + 1))) x
      = if (∀ i < k, x i = x top) ∧ ∀ i, k ≤ i → i < top → x i = false then (r2 : ℂ) else 0 := by
  induction k generalizing x with
  | zero =>
    rw [List.range_zero, List.foldl_nil, hadF_apply]
    have h1 : ket0 (top + 1) (update x top true) = 0 := by
      unfold ket0
      rw [if_neg]
      intro h
      have := h top (by omega)
      rw [Function.update_self] at this
      cases this
    have h2 : ket0 (top + 1) (update x top false) = if ∀ i < top, x i = false then 1 else 0 := by
      unfold ket0
      apply if_congr _ rfl rfl
      constructor
      · intro h i hi
        have := h i (by omega)
        rwa [Function.update_of_ne (by omega)] at this
      · intro h i hi
        by_cases e : i = top
        · rw [e, Function.update_self]
        · rw [Function.update_of_ne e]; exact h i (by omega)
    rw [h1, h2]
    have : ((∀ i < 0, x i = x top) ∧ ∀ i, 0 ≤ i → i < top → x i = false) ↔ ∀ i < top, x i = false :=
      ⟨fun h i hi => h.2 i (by omega) hi, fun h => ⟨fun i hi => absurd hi (by omega), fun i _ hi => h i hi⟩⟩
    simp only [this]
    split_ifs <;> simp
  | succ k ih =>
    rw [List.range_succ, List.foldl_append, List.foldl_cons, List.foldl_nil, pull, ih (by omega)]
    apply if_congr _ rfl rfl
    have ht : cxMap top k x top = x top := by
      unfold cxMap; rw [Function.update_of_ne (by omega)]
    have hne : ∀ i, i ≠ k → cxMap top k x i = x i := fun i hi => by
      unfold cxMap; rw [Function.update_of_ne hi]
    have hk' : cxMap top k x k = xor (x k) (x top) := by
      unfold cxMap; rw [Function.update_self]
    rw [ht]
    constructor
    · rintro ⟨h1, h2⟩
      refine ⟨fun i hi => ?_, fun i hi hit => ?_⟩
      · by_cases e : i = k
        · have := h2 k le_rfl (by omega)
          rw [hk'] at this
          rw [e]
          revert this; cases x k <;> cases x top <;> simp
        · have := h1 i (by omega); rwa [hne i e] at this
      · have := h2 i (by omega) hit; rwa [hne i (by omega)] at this
    · rintro ⟨h1, h2⟩
      refine ⟨fun i hi => ?_, fun i hi hit => ?_⟩
      · rw [hne i (by omega)]; exact h1 i (by omega)
      · by_cases e : i = k
        · rw [e, hk', h1 k (by omega), Bool.xor_self]
        · rw [hne i e]; exact h2 i (by omega) hit

/-- The operations and the state they prepare. -/
theorem ghz_spec (n : ℕ) (hn : 0 < n) : ∃ ops f, createGHZState n = .ok ops ∧ ActsL ops f ∧
    ∀ x : Bits, f (ket0 n) x =
      if (∀ q < n, x q = false) ∨ (∀ q < n, x q = true) then (r2 : ℂ) else 0 := by
  obtain ⟨top, rfl⟩ : ∃ t, n = t + 1 := ⟨n - 1, by omega⟩
  unfold createGHZState
  rw [if_neg (by omega)]
  refine ⟨_, _, rfl, actsL_cons (acts_h _) (actsL_map _ fun i _ => acts_cx _ i), fun x => ?_⟩
  simp only [Nat.add_sub_cancel]
  rw [ghz_fold top top le_rfl]
  apply if_congr _ rfl rfl
  constructor
  · rintro ⟨h, -⟩
    cases ht : x top
    · left; intro q hq
      by_cases e : q = top
      · rw [e, ht]
      · rw [h q (by omega), ht]
    · right; intro q hq
      by_cases e : q = top
      · rw [e, ht]
      · rw [h q (by omega), ht]
  · rintro (h | h)
    · exact ⟨fun i hi => by rw [h i (by omega), h top (by omega)], fun i h1 h2 => absurd h1 (by omega)⟩
    · exact ⟨fun i hi => by rw [h i (by omega), h top (by omega)], fun i h1 h2 => absurd h1 (by omega)⟩

end MQT.Alg
