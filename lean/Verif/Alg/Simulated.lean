/-
Running a generated circuit on the decision-diagram simulator: with the layout that
`QuantumComputation(nq, nq)` sets up (qubit `q` on level `q`), simulation from `|0…0⟩` gives the
diagram of the state the circuit prepares.
-/
import Verif.Alg.Common
import Verif.Props.Sim

set_option autoImplicit false

noncomputable section

open Classical
open Function (update)

namespace MQT.Alg

open MQT.IR MQT.Opt MQT.Sim MQT.DD

/-- The layout of a fresh circuit (QuantumComputation.cpp 334-364: `initialLayout` and
`outputPermutation` map every qubit to itself). -/
def idPerm (n : ℕ) : Perm := (List.range n).map fun q => (q, q)

theorem lookup_diag (l : List ℕ) (k : ℕ) :
    ((l.map fun q => (q, q)) : Perm).lookup k = if k ∈ l then some k else none := by
  induction l with
  | nil => rfl
  | cons a l ih =>
    rw [List.map_cons, List.lookup_cons, ih]
    by_cases h : k = a
    · subst h; simp
    · have hb : (k == a) = false := by simpa using h
      simp [hb, h]

theorem idPerm_lookup (n k : ℕ) : (idPerm n).lookup k = if k < n then some k else none := by
  unfold idPerm
  rw [lookup_diag]
  simp

theorem idPerm_layout (n : ℕ) : Layout n (idPerm n) := by
  refine ⟨?_, ?_, ?_⟩
  · have : (idPerm n).map Prod.fst = List.range n := by
      rw [idPerm, List.map_map]; exact List.map_id _
    rw [this]; exact List.nodup_range
  · intro a b v ha hb
    rw [idPerm_lookup] at ha hb
    split_ifs at ha hb
    cases ha; cases hb; rfl
  · intro k v h
    rw [idPerm_lookup] at h
    split_ifs at h with hk
    cases h; exact hk

theorem idPerm_target (n : ℕ) : Target (idPerm n) (idPerm n) := by
  have hm : ∀ x ∈ idPerm n, x.1 < n ∧ x.2 = x.1 := by
    intro x hx
    simp only [idPerm, List.mem_map, List.mem_range] at hx
    obtain ⟨q, hq, rfl⟩ := hx
    exact ⟨hq, rfl⟩
  refine ⟨(idPerm_layout n).keys, ?_, fun x hx => ?_, fun x hx => ?_⟩
  · have : (idPerm n).map Prod.snd = List.range n := by
      rw [idPerm, List.map_map]; exact List.map_id _
    rw [this]; exact List.nodup_range
  · exact ⟨x.1, by rw [idPerm_lookup, if_pos (hm x hx).1]⟩
  · exact ⟨x.1, by rw [idPerm_lookup, if_pos (hm x hx).1, (hm x hx).2]⟩

theorem good_gate {D : ℕ → Prop} {ty : OpType} {ps : List ℝ} {M : Mat1}
    (h1 : ty.isSingleQubitGate = true) (hM : gate1 ty ps = some M) {q : ℕ} (h : D q) :
    Good D (gate ty q ps) := by
  unfold gate
  rw [Good]
  refine ⟨⟨by simp, by simp [ctrlQubits]⟩, ⟨_, StdOp.denote_single_of (q := q) h1 rfl hM⟩, ?_, ?_,
    fun h => ?_⟩
  · intro k hk
    rw [StdOp.mem_used] at hk
    simp [ctrlQubits] at hk
    rw [hk]; exact h
  · intro c hc; simp at hc
  · rfl

theorem good_cgate {D : ℕ → Prop} {ty : OpType} {ps : List ℝ} {M : Mat1}
    (h1 : ty.isSingleQubitGate = true) (hM : gate1 ty ps = some M) {c q : ℕ} (hc : D c) (h : D q)
    (hne : c ≠ q) : Good D (cgate ty c q ps) := by
  unfold cgate
  rw [Good]
  refine ⟨⟨by simp, by simp [ctrlQubits]; omega⟩, ⟨_, StdOp.denote_single_of (q := q) h1 rfl hM⟩, ?_,
    ?_, fun h => ?_⟩
  · intro k hk
    rw [StdOp.mem_used] at hk
    simp [ctrlQubits] at hk
    rcases hk with rfl | rfl <;> assumption
  · intro a ha b hb _
    simp at ha hb
    rw [ha, hb]
  · subst h; cases h1

theorem good_swapG {D : ℕ → Prop} {a b : ℕ} (ha : D a) (hb : D b) (hne : a ≠ b) :
    Good D (swapG a b) := so_good ha hb hne

/-- Simulation of a circuit with the fresh layout from `|0…0⟩`. -/
theorem simulate_ident {n : ℕ} {ops : List (Op ℝ)} {F : State → State} (hg : GoodL (fun q => q < n) ops)
    (hF : ActsL ops F) : ∃ e0 e', makeZeroState n n 0 = .ok e0 ∧
      simulate n ops (idPerm n) (idPerm n) 0 e0 = .ok e' ∧ VECan n e' ∧
      ∀ z, e'.vec z = F (ket0 n) z := by
  obtain ⟨e0, h1, h2, h3⟩ := c42_zero_state n n 0 (by omega)
  have hD : (fun q => ∃ v, (idPerm n).lookup q = some v) = fun q => q < n := by
    funext q
    rw [idPerm_lookup]
    apply propext
    constructor
    · rintro ⟨v, hv⟩; split_ifs at hv with h; exact h
    · intro h; exact ⟨q, if_pos h⟩
  obtain ⟨e', G, τ, k1, k2, k3, k4, k5, -, k7⟩ := c46_simulate_partial (n := n) (σ := 1)
    (idPerm_layout n)
    (fun k v h => by
      rw [idPerm_lookup] at h
      split_ifs at h
      cases h; rfl)
    (idPerm_target n) (ops := ops) (by rw [hD]; exact hg) 0 (h2 rfl) (ket0 n)
    (fun z => by rw [h3 z]; simp only [Nat.zero_add]; rfl)
  refine ⟨e0, e', h1, k1, k2, fun z => ?_⟩
  have hτ : ∀ k, τ k = k := by
    intro k
    by_cases hk : k < n
    · exact k4 (k, k) (by simp [idPerm, hk])
    · exact k5 k (by rw [idPerm_lookup, if_neg hk])
  obtain rfl := k3.unique hF
  rw [k7 z, cis_eq, cis_zero, one_mul]
  congr 1
  funext k
  exact congrArg z (hτ k)

end MQT.Alg
