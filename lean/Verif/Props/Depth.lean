/-
Property C124: the depth of a circuit is the length of its longest path.
-/
import Verif.IR.Depth

set_option autoImplicit false

namespace MQT.IR.Depth

/-- What `getDepth` computes, and when it is defined. -/
theorem getDepth_eq {n : ℕ} {os : List Op} (hp : allPlain os = true) : getDepth n os =
    if os = [] then some 0
    else if n ≠ 0 ∧ ∀ a ∈ allSteps os, ∀ q ∈ a, q < n then some (((List.range n).map (lev (allSteps os).reverse)).foldl max 0)
    else none := by
  unfold getDepth
  by_cases h0 : os = []
  · simp [h0]
  · rw [if_neg (by simpa using h0), if_neg h0, contributes_eq n os _ hp, run_some, lev_reverse]
    by_cases h1 : ∀ a ∈ allSteps os, ∀ q ∈ a, q < n
    · rw [if_pos h1, Option.bind_some]
      by_cases h2 : n = 0
      · rw [if_pos h2, if_neg (fun h => h.1 h2)]
      · rw [if_neg h2, if_pos ⟨h2, h1⟩]
    · rw [if_neg h1, if_neg (fun h => h1 h.2)]
      rfl

/-- **C124.** `getDepth` has defined behaviour exactly if the circuit has no operations, or it has qubits and the gates are on qubits with
numbers below the number of qubits.

Missing from C124: other circuits, see `c124_no_qubits` and `c124_removed`. -/
theorem c124_defined_partial {n : ℕ} {os : List Op} (hp : allPlain os = true) :
    (getDepth n os).isSome = true ↔ os = [] ∨ n ≠ 0 ∧ ∀ a ∈ allSteps os, ∀ q ∈ a, q < n := by
  rw [getDepth_eq hp]
  by_cases h0 : os = []
  · simp [h0]
  · rw [if_neg h0]
    by_cases h1 : n ≠ 0 ∧ ∀ a ∈ allSteps os, ∀ q ∈ a, q < n
    · rw [if_pos h1]
      exact ⟨fun _ => Or.inr h1, fun _ => rfl⟩
    · rw [if_neg h1]
      exact ⟨fun h => absurd h (by simp), fun h => h.elim (fun h => absurd h h0) (fun h => absurd h h1)⟩

/-- **C124.** No path of steps is longer than the depth, and there is one of this length.

Missing from C124: circuits with classically controlled compound operations, for which it fails, see `c124_classic`. -/
theorem c124_depth_partial {n k : ℕ} {os : List Op} (hp : allPlain os = true) (h : getDepth n os = some k) :
    (∀ s, s.Sublist (allSteps os) → IsPath s → s.length ≤ k) ∧ ∃ s, s.Sublist (allSteps os) ∧ IsPath s ∧ s.length = k := by
  rw [getDepth_eq hp] at h
  by_cases h0 : os = []
  · rw [if_pos h0] at h
    obtain rfl := Option.some.inj h
    subst h0
    refine ⟨fun s hs _ => ?_, [], by simp, ⟨by simp, by simp⟩, rfl⟩
    rw [allSteps, List.sublist_nil] at hs
    simp [hs]
  · rw [if_neg h0] at h
    by_cases h1 : n ≠ 0 ∧ ∀ a ∈ allSteps os, ∀ q ∈ a, q < n
    · rw [if_pos h1] at h
      obtain rfl := Option.some.inj h
      constructor
      · intro s hs hpath
        have hr := path_reverse hpath
        cases e : s.reverse with
        | nil => simp [List.reverse_eq_nil_iff.1 e]
        | cons a t =>
          rw [e] at hr
          obtain ⟨q, hq⟩ := List.exists_mem_of_ne_nil a (hr.1 a List.mem_cons_self)
          have hs' : (a :: t).Sublist (allSteps os).reverse := by
            rw [← e]
            exact List.reverse_sublist.2 hs
          have h2 := path_le _ t a hs' hr q hq
          have h3 : q < n := h1.2 a (List.mem_reverse.1 (hs'.subset List.mem_cons_self)) q hq
          have h4 := (le_foldl_max ((List.range n).map (lev (allSteps os).reverse)) 0).2 _
            (List.mem_map_of_mem (List.mem_range.2 h3))
          have h5 : s.length = (a :: t).length := by rw [← e, List.length_reverse]
          omega
      · by_cases hk : ((List.range n).map (lev (allSteps os).reverse)).foldl max 0 = 0
        · exact ⟨[], by simp, ⟨by simp, by simp⟩, hk.symm⟩
        · rcases foldl_max_mem ((List.range n).map (lev (allSteps os).reverse)) 0 with h2 | h2
          · exact absurd h2 hk
          · obtain ⟨q, -, h3⟩ := List.mem_map.1 h2
            obtain ⟨a, t, h4, h5, -, h6⟩ := path_exists _ q (by rw [h3]; exact hk)
            refine ⟨(a :: t).reverse, ?_, path_reverse h5, by rw [List.length_reverse, h6, h3]⟩
            have := List.reverse_sublist.2 h4
            rwa [List.reverse_reverse] at this
    · rw [if_neg h1] at h
      exact absurd h (by simp)

/-- **C124 fails.** A classically controlled compound operation does not count: the depth of a circuit with one that consists of two gates
on a qubit is 0. -/
theorem c124_classic : getDepth 1 [.classic (.compound [] [.gate false [0] [], .gate false [0] []])] = some 0 ∧
    ∃ s, s.Sublist (allSteps [.classic (.compound [] [.gate false [0] [], .gate false [0] []])]) ∧ IsPath s ∧ s.length = 2 := by
  refine ⟨by simp [getDepth, contributes, contribute, addBase, Op.targets, Op.controls], [[0], [0]], ?_, ⟨by simp, by simp⟩, rfl⟩
  simp [allSteps, steps]

/-- **C124 fails.** A classically controlled barrier counts, though barriers do not. -/
theorem c124_barrier : getDepth 1 [.classic (.gate true [0] [])] = some 1 ∧ getDepth 1 [.gate true [0] []] = some 0 := by
  simp [getDepth, contributes, contribute, addBase, Op.targets, Op.controls]

/-- **C124 fails.** The depth of a circuit without qubits but with an operation, as the barrier of `barrier()`, is the largest element of an empty
vector: undefined behaviour. -/
theorem c124_no_qubits (o : Op) : getDepth 0 [o] = none := by
  unfold getDepth
  rw [if_neg (by simp)]
  cases contributes 0 [o] (fun _ => 0) <;> simp

/-- **C124 fails.** If qubit 0 was removed of two, a gate on the other, qubit 1, accesses the vector behind its end. -/
theorem c124_removed : getDepth 1 [.gate false [1] []] = none := by
  simp [getDepth, contributes, contribute, addBase]

/-- Two gates on a qubit before a controlled gate and a measurement: depth 4; the other qubit has only one gate before. -/
example : getDepth 2 [.compound [] [.gate false [0] [], .gate false [0] []], .gate false [1] [], .gate true [0, 1] [],
    .gate false [0] [1], .nonUnitary [1, 0]] = some 4 := by
  simp [getDepth, contributes, contribute, addBase, addNon, List.range_succ, Function.update]

end MQT.IR.Depth
