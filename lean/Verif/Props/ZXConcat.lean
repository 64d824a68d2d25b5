/-
Property C108: concatenation of ZX diagrams (`concat`).
-/
import Verif.Props.ZXAdjoint
import Verif.ZX.ConcatMain

set_option autoImplicit false

noncomputable section

open Classical

open Function (update)

namespace MQT.ZX

open Diagram

/-- The matrix entry of the composition of two diagrams with `n` wires: the sum over the bits of the wires. -/
def composed (n : ℕ) (ρ : ℕ → ℝ) (D R : Diagram) (y x : ℕ → Bool) : ℂ :=
  sumOver (Finset.range n) (fun z => entry ρ R y z * entry ρ D z x) fun _ => false

/-- **C108.** Concatenation yields a well-formed diagram with the same inputs and as many outputs, whose linear map is the composition
of the linear maps, up to a positive factor.
Missing from C108: a second diagram with a global phase (`c108_global`), and diagrams whose outputs or inputs are directly
connected with each other (`c108_cup`). -/
theorem c108_concat_partial {n : ℕ} {D R : Diagram} (J : Joins n D R) (hg : R.globalPhase.isZero) :
    ∃ F, D.concat R = some F ∧ F.Inv ∧ F.inputs = D.inputs ∧ F.outputs.length = n ∧
      ∃ k : ℝ, 0 < k ∧ ∀ ρ y x, composed n ρ D R y x = k * entry ρ F y x := by
  obtain ⟨F, e, h1, h2, h3, -, k, hk, h⟩ := concat_spec J
  refine ⟨F, e, h1, h2, h3, k, hk, fun ρ y x => ?_⟩
  unfold composed
  rw [h, Phase.u_of_isZero ρ hg, one_pow, mul_one]

/-- **C108.** In general, it is the composition up to a positive factor and the square of the global phase of the second diagram. -/
theorem c108_phase_partial {n : ℕ} {D R : Diagram} (J : Joins n D R) :
    ∃ F, D.concat R = some F ∧ F.globalPhase = D.globalPhase.add R.globalPhase.neg ∧
      ∃ k : ℝ, 0 < k ∧ ∀ ρ y x, composed n ρ D R y x = k * R.globalPhase.u ρ ^ 2 * entry ρ F y x := by
  obtain ⟨F, e, -, -, -, h1, k, hk, h⟩ := concat_spec J
  exact ⟨F, e, h1, k, hk, h⟩

/-- **C108.** Diagrams with different numbers of qubits are not concatenated. -/
theorem c108_rejected {D R : Diagram} (h : R.inputs.length ≠ D.inputs.length) : D.concat R = none := if_pos h

/-! ### Examples -/

theorem xWire_joins : Joins 1 xWire xWire where
  invD := xWire_good.inv
  invR := xWire_good.inv
  inD := rfl
  outD := rfl
  inR := rfl
  outR := rfl
  endsD := ⟨by decide, fun p hp => by rw [List.mem_singleton.1 hp]; exact ⟨_, rfl⟩, fun p hp => by rw [List.mem_singleton.1 hp]; rfl,
    fun p hp => by rw [List.mem_singleton.1 hp]; rfl, fun p hp => by rw [List.mem_singleton.1 hp]; decide⟩
  endsR := ⟨by decide, fun p hp => by rw [List.mem_singleton.1 hp]; exact ⟨_, rfl⟩, fun p hp => by rw [List.mem_singleton.1 hp]; rfl,
    fun p hp => by rw [List.mem_singleton.1 hp]; rfl, fun p hp => by rw [List.mem_singleton.1 hp]; decide⟩
  alD := fun v hv => by rw [List.mem_singleton.1 hv]; exact ⟨⟨_, rfl⟩, by decide⟩
  alR := fun v hv => by rw [List.mem_singleton.1 hv]; exact ⟨⟨_, rfl⟩, by decide⟩
  qubit := by
    intro k v h
    match k with
    | 0 =>
      have : v = 0 := by
        have h' : some 0 = some v := h
        injection h' with h'
        exact h'.symm
      subst this
      rfl
    | k + 1 => cases h

theorem xWire_entry (ρ : ℕ → ℝ) (y x : ℕ → Bool) : entry ρ xWire y x =
    if y 0 then (if x 0 then -Complex.I else Complex.I) else 1 := by
  unfold entry
  rw [xWire_val]
  rfl

theorem composed_one (ρ : ℕ → ℝ) (D R : Diagram) (y x : ℕ → Bool) : composed 1 ρ D R y x =
    entry ρ R y (update (fun _ => false) 0 false) * entry ρ D (update (fun _ => false) 0 false) x +
      entry ρ R y (update (fun _ => false) 0 true) * entry ρ D (update (fun _ => false) 0 true) x := by
  unfold composed
  rw [show Finset.range 1 = insert 0 ∅ from rfl, sumOver_insert (Finset.notMem_empty 0), sumOver_empty]

/-- The spider of the copy has the index 3, and the output the index 4; the output of the first diagram is gone. -/
example : ∃ F, xWire.concat xWire = some F ∧ F.outputs = [4] ∧ F.vert 2 = none ∧
    F.adj 1 = [⟨0, .simple⟩, ⟨3, .hadamard⟩] ∧ F.adj 3 = [⟨1, .hadamard⟩, ⟨4, .hadamard⟩] := by
  refine ⟨_, rfl, rfl, rfl, rfl, rfl⟩

/-- Not an empty statement: the entry in row 1 and column 1 is a multiple of `i - 1`. -/
example (ρ : ℕ → ℝ) : ∃ F, xWire.concat xWire = some F ∧ ∃ k : ℝ, 0 < k ∧
    k * entry ρ F (fun _ => true) (fun _ => true) = Complex.I - 1 := by
  obtain ⟨F, e, -, -, -, k, hk, h⟩ := c108_concat_partial xWire_joins ⟨rfl, rfl⟩
  refine ⟨F, e, k, hk, ?_⟩
  rw [← h, composed_one]
  simp [xWire_entry]
  ring

/-! The global phase of the second diagram is subtracted. -/

theorem phaseD_joins : Joins 1 xWire phaseD := by
  obtain ⟨a, b, c, d, e, f, g, h, i, j, k⟩ := xWire_joins
  exact ⟨a, c107_global.1.inv, c, d, e, f, g, ⟨h.nodup, h.alive, h.ty, h.one, h.ne⟩, i, j, k⟩

/-- **C108 fails.** If the second diagram has the global phase `i`, then the result is not the composition up to a positive factor. -/
theorem c108_global : ∃ F, xWire.concat phaseD = some F ∧
    ¬ ∃ k : ℝ, 0 < k ∧ ∀ ρ y x, composed 1 ρ xWire phaseD y x = k * entry ρ F y x := by
  obtain ⟨F, e, -, k, hk, h⟩ := c108_phase_partial phaseD_joins
  refine ⟨F, e, ?_⟩
  rintro ⟨k', hk', h'⟩
  have e1 : composed 1 (fun _ => 0) xWire phaseD (fun _ => false) (fun _ => true) = Complex.I * (1 - Complex.I) := by
    have hp : ∀ y x, entry (fun _ => 0) phaseD y x = Complex.I * entry (fun _ => 0) xWire y x := by
      intro y x
      have : val (fun _ => 0) phaseD (bitsOf phaseD.inputs phaseD.outputs x y) =
          (Phase.ofRat (1 / 2)).u (fun _ => 0) * ((Phase.zero.u fun _ => 0)⁻¹ *
            val (fun _ => 0) xWire (bitsOf xWire.inputs xWire.outputs x y)) := by
        unfold val
        rw [show xWire.globalPhase = Phase.zero from rfl, ← mul_assoc ((Phase.zero.u fun _ => 0)⁻¹),
          inv_mul_cancel₀ (Phase.u_ne_zero _ _), one_mul]
        rfl
      unfold entry
      rw [this, half_u, Phase.u_zero, inv_one, one_mul]
    rw [composed_one, hp, hp]
    simp [xWire_entry]
    linear_combination Complex.I_sq
  have a := h (fun _ => 0) (fun _ => false) (fun _ => true)
  have b := h' (fun _ => 0) (fun _ => false) (fun _ => true)
  rw [show phaseD.globalPhase = Phase.ofRat (1 / 2) from rfl, half_u, Complex.I_sq] at a
  rw [e1] at a b
  obtain ⟨w, hw⟩ : ∃ w, w = entry (fun _ => 0) F (fun _ => false) (fun _ => true) := ⟨_, rfl⟩
  rw [← hw] at a b
  have a1 := congrArg Complex.re a
  have b1 := congrArg Complex.re b
  simp at a1 b1
  have hwr : 0 < w.re := by
    by_contra hc
    have := mul_nonneg hk'.le (neg_nonneg.2 (not_lt.1 hc))
    linarith
  have := mul_pos hk hwr
  linarith

/-! Edges between inputs of the second diagram are lost. -/

/-- Two wires. -/
def twoWires : Diagram := ofLists [.boundary, .boundary, .boundary, .boundary] (fun _ => Phase.zero)
  [[⟨2, .simple⟩], [⟨3, .simple⟩], [⟨0, .simple⟩], [⟨1, .simple⟩]] [0, 1] [2, 3]

/-- The two inputs joined, and the two outputs joined. -/
def cupCap : Diagram := ofLists [.boundary, .boundary, .boundary, .boundary] (fun _ => Phase.zero)
  [[⟨1, .simple⟩], [⟨0, .simple⟩], [⟨3, .simple⟩], [⟨2, .simple⟩]] [0, 1] [2, 3]

theorem zero_range : Phase.zero.const.InRange := ⟨by norm_num [Phase.zero], by norm_num [Phase.zero]⟩

theorem twoWires_good : twoWires.Good := ofLists_good (by decide) (by decide) fun _ => zero_range
theorem cupCap_good : cupCap.Good := ofLists_good (by decide) (by decide) fun _ => zero_range

theorem four_alive (es : List (List Edge)) (v : ℕ) : (ofLists [.boundary, .boundary, .boundary, .boundary] (fun _ => Phase.zero) es [0, 1] [2, 3]).Alive v ↔
    v ∈ [0, 1, 2, 3] := by
  rw [ofLists_alive]
  simp
  omega

theorem four_ty (es : List (List Edge)) (v : ℕ) : (graph (ofLists [.boundary, .boundary, .boundary, .boundary] (fun _ => Phase.zero) es [0, 1] [2, 3])).ty v ≠ .boundary ↔
    v ∈ ([] : List ℕ) := by
  rw [ofLists_ty]
  match v with
  | 0 => simp
  | 1 => simp
  | 2 => simp
  | 3 => simp
  | v + 4 => simp

theorem twoWires_entry (ρ : ℕ → ℝ) (y x : ℕ → Bool) : entry ρ twoWires y x = if y 0 = x 0 ∧ y 1 = x 1 then 1 else 0 := by
  unfold entry
  rw [val_list twoWires_good.inv ρ _ (lv := [0, 1, 2, 3]) (li := []) (by decide) (by decide) (four_alive _) (four_ty _)]
  cases hx0 : x 0 <;> cases hx1 : x 1 <;> cases hy0 : y 0 <;> cases hy1 : y 1 <;>
    simp [listSum, listW, twoWires, ofLists, ew, odd, Graph.vf, graph, Graph.ty, Phase.u_zero, bitsOf, List.idxOf_cons, hx0, hx1, hy0, hy1]

theorem cupCap_entry (ρ : ℕ → ℝ) (y x : ℕ → Bool) : entry ρ cupCap y x = if x 0 = x 1 ∧ y 0 = y 1 then 1 else 0 := by
  unfold entry
  rw [val_list cupCap_good.inv ρ _ (lv := [0, 1, 2, 3]) (li := []) (by decide) (by decide) (four_alive _) (four_ty _)]
  cases hx0 : x 0 <;> cases hx1 : x 1 <;> cases hy0 : y 0 <;> cases hy1 : y 1 <;>
    simp [listSum, listW, cupCap, ofLists, ew, odd, Graph.vf, graph, Graph.ty, Phase.u_zero, bitsOf, List.idxOf_cons, hx0, hx1, hy0, hy1]

theorem composed_two (ρ : ℕ → ℝ) (D R : Diagram) (y x : ℕ → Bool) : composed 2 ρ D R y x =
    (fun f : (ℕ → Bool) → ℂ => (f (update (update (fun _ => false) 0 false) 1 false) + f (update (update (fun _ => false) 0 false) 1 true)) +
      (f (update (update (fun _ => false) 0 true) 1 false) + f (update (update (fun _ => false) 0 true) 1 true)))
      fun z => entry ρ R y z * entry ρ D z x := by
  unfold composed
  rw [show Finset.range 2 = insert 1 (insert 0 ∅) by decide, sumOver_insert (by decide), sumOver_insert (Finset.notMem_empty 0)]
  simp only [sumOver_empty]

/-- The bits of boundary vertices without edges do not matter. -/
theorem W_isolated (ρ : ℕ → ℝ) {G : Graph} {V : Finset ℕ} {x x' : ℕ → Bool}
    (h : ∀ v ∈ V, x v = x' v ∨ (G.ty v = .boundary ∧ ∀ u ∈ V, ∀ t, G.m u v t = 0 ∧ G.m v u t = 0)) : G.W ρ V x = G.W ρ V x' := by
  unfold Graph.W
  congr 1
  · apply Finset.prod_congr rfl
    intro v hv
    unfold Graph.vf
    rcases h v hv with e | ⟨e, _⟩
    · rw [e]
    · unfold Graph.ty at e
      cases hd : G.vert v with
      | none => rfl
      | some d =>
        rw [hd] at e
        have e' : d.type = .boundary := e
        simp [e']
  · apply Finset.prod_congr rfl
    intro u hu
    apply Finset.prod_congr rfl
    intro v hv
    congr 1
    unfold Graph.pf
    rcases h u hu with e | ⟨_, e⟩
    · rcases h v hv with e' | ⟨_, e'⟩
      · rw [e, e']
      · rw [(e' u hu .simple).1, (e' u hu .hadamard).1]
        simp
    · rw [(e v hv .simple).2, (e v hv .hadamard).2]
      simp

theorem cup_concat : ∃ F, twoWires.concat cupCap = some F ∧ F.inputs = [0, 1] ∧ F.size = 6 ∧ F.vert 2 = none ∧ F.vert 3 = none ∧
    (∀ v, v < 2 → F.adj v = [] ∧ (graph F).ty v = .boundary) ∧ F.adj 4 = [⟨5, .simple⟩] ∧ F.adj 5 = [⟨4, .simple⟩] := by
  refine ⟨_, rfl, rfl, rfl, rfl, rfl, ?_, rfl, rfl⟩
  intro v hv
  match v with
  | 0 => exact ⟨rfl, rfl⟩
  | 1 => exact ⟨rfl, rfl⟩
  | v + 2 => omega

/-- **C108 fails.** The edge between the two inputs of the second diagram is lost: the result is not even proportional to the
composition. -/
theorem c108_cup : ∃ F, twoWires.concat cupCap = some F ∧
    ¬ ∃ k : ℂ, ∀ ρ y x, composed 2 ρ twoWires cupCap y x = k * entry ρ F y x := by
  obtain ⟨F, e, hi, hs, h2, h3, hb, h4, h5⟩ := cup_concat
  refine ⟨F, e, ?_⟩
  rintro ⟨k, h⟩
  have hm : ∀ v, v < 2 → ∀ u, u < 6 → ∀ t, (graph F).m u v t = 0 ∧ (graph F).m v u t = 0 := by
    intro v hv u hu6 t
    constructor
    · show (if F.Alive u ∧ F.Alive v then (F.adj u).count ⟨v, t⟩ else 0) = 0
      split
      · next hu =>
        have h45 : ∀ w : ℕ, 2 ≤ w → ([⟨w, .simple⟩] : List Edge).count ⟨v, t⟩ = 0 := by
          intro w hw
          apply List.count_eq_zero.2
          intro hc
          have : v = w := congrArg Edge.tgt (List.mem_singleton.1 hc)
          omega
        obtain ⟨⟨d, hd⟩, -⟩ := hu
        match u, hu6 with
        | 0, _ => rw [(hb 0 (by omega)).1]; rfl
        | 1, _ => rw [(hb 1 (by omega)).1]; rfl
        | 2, _ =>
          rw [h2] at hd
          cases hd
        | 3, _ =>
          rw [h3] at hd
          cases hd
        | 4, _ => rw [h4]; exact h45 5 (by omega)
        | 5, _ => rw [h5]; exact h45 4 (by omega)
        | u + 6, h6 => omega
      · rfl
    · show (if F.Alive v ∧ F.Alive u then (F.adj v).count ⟨u, t⟩ else 0) = 0
      rw [(hb v hv).1]
      simp
  have c : ∀ y x x', entry (fun _ => 0) F y x = entry (fun _ => 0) F y x' := by
    intro y x x'
    unfold entry val sumOver
    congr 1
    apply Finset.sum_congr rfl
    intro S _
    apply W_isolated
    intro v _
    by_cases hv : v < 2
    · exact .inr ⟨(hb v hv).2, fun u hu t => hm v hv u (by
        have := (Finset.mem_filter.1 hu).1
        rw [hs] at this
        exact Finset.mem_range.1 this) t⟩
    · left
      have : v ∉ F.inputs := by
        rw [hi]
        simp
        omega
      simp only [bitsOf, if_neg this]
  have a := h (fun _ => 0) (fun _ => false) (fun _ => false)
  have b := h (fun _ => 0) (fun _ => false) (fun i => decide (i = 1))
  rw [c _ _ (fun _ => false), ← a, composed_two, composed_two] at b
  simp [twoWires_entry, cupCap_entry] at b

end MQT.ZX
