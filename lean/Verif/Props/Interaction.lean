/-
Property C115: the interaction graph of a layer (`Layer::constructInteractionGraph`) and its executable operations of a type
(`Layer::getExecutablesOfType`).
-/
import Verif.DataStructures.Interaction
import Verif.Props.Layer

set_option autoImplicit false

namespace MQT.Layer

open MQT.IR OpType

variable {P : Type}

/-- **C115.** The construction throws iff the type is not a gate on one qubit, the number of controls is not 1, an operation
that is asked for does not act on two qubits, or two of them act on the same qubits; in whichever order the executable
operations are visited. -/
theorem c115_throws (c : List (LOp P)) (ty : OpType) (n : ℕ) {l : List ℕ} (hn : l.Nodup) (hl : ∀ v ∈ l, v < c.length) :
    interactionGraph c ty n l = .throw ↔ ty.isSingleQubitGate = false ∨ n ≠ 1 ∨ (∃ v ∈ l, ∃ s, Is c ty n v s ∧ s.card ≠ 2) ∨
      ∃ u ∈ l, ∃ v ∈ l, u ≠ v ∧ ∃ s, Is c ty n u s ∧ Is c ty n v s := by
  unfold interactionGraph
  rw [interactionType_eq]
  by_cases h1 : ty.isSingleQubitGate = true
  · by_cases h2 : n = 1
    · rw [if_pos (by simp [h1, h2])]
      rcases loop_interaction c ty n l hn hl with ⟨hc, e⟩ | ⟨hc, g, _, _, _, e, -⟩
      · exact ⟨fun _ => Or.inr (Or.inr hc), fun _ => e⟩
      · rw [e]
        constructor
        · intro h
          cases h
        · rintro (h | h | h)
          · rw [h1] at h
            cases h
          · exact absurd h2 h
          · exact absurd h hc
    · rw [if_neg (by simp [h2])]
      exact ⟨fun _ => Or.inr (Or.inl h2), fun _ => rfl⟩
  · rw [if_neg (by simp [h1])]
    exact ⟨fun _ => Or.inl (by simpa using h1), fun _ => rfl⟩

/-- **C115.** Otherwise it returns the graph with an edge between the qubits of every executable operation that is asked for,
labelled with the operation, and no other edges or vertices.
Missing from C115: operations on the same qubits (`c115_twice`, `c115_thrice`). -/
theorem c115_graph_partial (c : List (LOp P)) {ty : OpType} (ht : ty.isSingleQubitGate = true) {l : List ℕ} (hn : l.Nodup)
    (hl : ∀ v ∈ l, v < c.length) (h2 : ∀ v ∈ l, ∀ s, Is c ty 1 v s → s.card = 2)
    (hd : ∀ u ∈ l, ∀ v ∈ l, u ≠ v → ∀ s, Is c ty 1 u s → ¬ Is c ty 1 v s) :
    ∃ g, interactionGraph c ty 1 l = .ok g ∧ Shows c ty 1 l g := by
  unfold interactionGraph
  rw [interactionType_eq, if_pos (by simp [ht])]
  rcases loop_interaction c ty 1 l hn hl with ⟨hc, e⟩ | ⟨hc, g, _, _, _, e, H⟩
  · exfalso
    rcases hc with ⟨v, hv, s, hs, h⟩ | ⟨u, hu, v, hv, hne, s, hs, hs'⟩
    · exact h (h2 v hv s hs)
    · exact hd u hu v hv hne s hs hs'
  · exact ⟨g, e, H.shows⟩

/-- Operations of a circuit whose meaning is defined act on two qubits if they are gates on one qubit with one control. -/
theorem fits_two {nq : ℕ} {c : List (StdOp ℝ)} (hf : Fits nq c) {ty : OpType} (ht : ty.isSingleQubitGate = true) {v : ℕ} {s : Finset ℕ}
    (h : Is (c.map .std) ty 1 v s) : s.card = 2 := by
  obtain ⟨o, ho, h1, h2, rfl⟩ := h
  rw [List.getElem?_map, Option.map_eq_some_iff] at ho
  obtain ⟨o, ho, rfl⟩ := ho
  obtain ⟨w, ⟨f, hden⟩, -⟩ := hf o (List.mem_of_getElem? ho)
  have h1 : o.type = ty := h1
  refine used_two w ?_ h2
  rw [StdOp.denote_single (by rw [h1]; exact ht)] at hden
  split at hden
  next q M hq hM => rw [hq]; rfl
  next => cases hden

/-- **C115.** For layers that are constructed without commutation: whatever has been executed, the interaction graph can be
constructed for every gate on one qubit with one control.
Missing from C115: as above, and as for C88. -/
theorem c115_layer_partial (nq : ℕ) (c : List (StdOp ℝ)) (hf : Fits nq c) (ha : Arity c) (hi : Irreducible c) :
    ∃ g, layer nq (c.map .std) false = .ok g ∧ ∀ l g', (∀ v ∈ l, v < c.length) → executeAll g l = .ok g' →
      ∀ es : List ℕ, es.Nodup → es.toFinset = g'.exec → ∀ ty : OpType, ty.isSingleQubitGate = true →
        ∃ G, interactionGraph (c.map .std) ty 1 es = .ok G ∧ Shows (c.map .std) ty 1 es G := by
  obtain ⟨g, e, h⟩ := c88_exec_partial nq c hf ha hi false (Or.inl rfl)
  refine ⟨g, e, fun l g' hl he es hn hes ty ht => ?_⟩
  have hex := h l g' hl he
  have hmem : ∀ v ∈ es, v < c.length ∧ v ∉ l ∧ ∀ u, Waits c false u v → u ∈ l := fun v hv =>
    (hex v).1 (by rw [← hes, List.mem_toFinset]; exact hv)
  refine c115_graph_partial _ ht hn (fun v hv => by rw [List.length_map]; exact (hmem v hv).1) (fun v _ s hs => fits_two hf ht hs) ?_
  have key : ∀ u ∈ es, ∀ v ∈ es, u < v → ∀ s, Is (c.map .std) ty 1 u s → ¬ Is (c.map .std) ty 1 v s := by
    rintro u hu v hv hlt s hs hs'
    have hc := fits_two hf ht hs
    obtain ⟨a, ha', -, -, rfl⟩ := hs
    obtain ⟨b, hb', -, -, hab⟩ := hs'
    rw [List.getElem?_map, Option.map_eq_some_iff] at ha' hb'
    obtain ⟨a, ha', rfl⟩ := ha'
    obtain ⟨b, hb', rfl⟩ := hb'
    obtain ⟨q, hq⟩ : ∃ q, q ∈ (LOp.std a).used := Finset.card_pos.1 (by omega)
    have hq' : q ∈ b.used := by
      rw [← hab] at hq
      exact hq
    exact (hmem u hu).2.1 ((hmem v hv).2.2 u ⟨v, q, a, b, b, hlt, le_refl _, ha', hb', hb', hq, hq', hq', Or.inl rfl⟩)
  intro u hu v hv hne s hs hs'
  rcases Nat.lt_or_gt_of_ne hne with h | h
  · exact key u hu v hv h s hs hs'
  · exact key v hv u hu h s hs' hs

/-- **C115.** The executable operations of a type with a number of controls, in the order in which they are visited. -/
theorem c115_executables (c : List (LOp P)) (ty : OpType) (n : ℕ) {l : List ℕ} (hl : ∀ v ∈ l, v < c.length) :
    ∃ r, executablesOf c ty n l = .ok r ∧ r.Sublist l ∧ ∀ v, v ∈ r ↔ v ∈ l ∧ ∃ s, Is c ty n v s := by
  refine ⟨_, executablesOf_eq c ty n l hl, List.filter_sublist, fun v => ?_⟩
  rw [List.mem_filter]
  refine and_congr_right fun hv => ?_
  obtain ⟨o, ho⟩ : ∃ o, c[v]? = some o := ⟨_, List.getElem?_eq_getElem (hl v hv)⟩
  simp only [is_iff ho, ho, Option.map_some, Option.getD_some]
  exact ⟨fun hm => ⟨_, hm, rfl⟩, fun ⟨_, hm, _⟩ => hm⟩

/-- **C115.** The type and the number of controls of an operation: those of a standard operation; a measurement is of type `measure` and has
no controls. -/
theorem c115_is (c : List (LOp P)) (ty : OpType) (n v : ℕ) (qs : Finset ℕ) : Is c ty n v qs ↔
    (∃ o : StdOp P, c[v]? = some (.std o) ∧ o.type = ty ∧ o.controls.card = n ∧ o.used = qs) ∨
    ∃ l cs, c[v]? = some (.meas l cs) ∧ ty = .measure ∧ n = 0 ∧ (LOp.meas l cs : LOp P).used = qs := by
  constructor
  · rintro ⟨o, h1, h2, h3, h4⟩
    cases o with
    | std o => exact Or.inl ⟨o, h1, h2, h3, h4⟩
    | meas l cs => exact Or.inr ⟨l, cs, h1, h2.symm, h3.symm, h4⟩
  · rintro (⟨o, h1, h2, h3, h4⟩ | ⟨l, cs, h1, rfl, rfl, h4⟩)
    · exact ⟨_, h1, h2, h3, h4⟩
    · exact ⟨_, h1, rfl, rfl, h4⟩

/-- **C115.** A vertex without an operation is undefined behaviour, in both functions. -/
theorem c115_missing (c : List (LOp P)) (ty : OpType) (n v : ℕ) (hv : c.length ≤ v) (l : List ℕ) :
    executablesOf c ty n (v :: l) = .ub ∧ (ty.isSingleQubitGate = true → interactionGraph c ty 1 (v :: l) = .ub) := by
  have h : c[v]? = Option.none := List.getElem?_eq_none hv
  refine ⟨by simp [executablesOf, h], fun ht => ?_⟩
  unfold interactionGraph
  rw [interactionType_eq, if_pos (by simp [ht])]
  simp only [loop, interactionStep, h]
  rfl

/-! ### Examples -/

/-- `cz 0,1; cz 1,2; h 1; cz 0,2; s 1`, as for C88. -/
def zs : List (StdOp ℕ) := [gcz 0 1, gcz 1 2, ⟨h, [], ∅, [1]⟩, gcz 0 2, ⟨s, [], ∅, [1]⟩]

/-- The three `cz` gates are executable and form a triangle. -/
example : layerAfter 3 zs true [] = .ok {0, 1, 3} ∧ ∃ g, interactionGraph (zs.map .std) z 1 [3, 0, 1] = .ok g ∧
    g.getEdge 2 1 = .ok 1 ∧ g.getEdge 0 2 = .ok 3 ∧ g.getNEdges = 3 ∧ g.getNVertices = 3 := by
  refine ⟨?_, _, rfl, ?_, ?_, ?_, ?_⟩
  · rw [layerAfter_eq _ _ (by decide)]
    decide +kernel
  all_goals decide +kernel

example : executablesOf (zs.map .std) z 1 [4, 0, 2, 3] = .ok [0, 3] ∧ executablesOf (zs.map .std) s 0 [4, 0, 2, 3] = .ok [4] :=
  ⟨rfl, rfl⟩

/-- Other types, and other numbers of controls. -/
example : interactionGraph (zs.map .std) swap 1 [0] = .throw ∧ interactionGraph (zs.map .std) z 2 [0] = .throw :=
  ⟨rfl, rfl⟩

/-! ### Operations on the same qubits -/

def gct (a b : ℕ) : StdOp ℕ := ⟨t, [], {(a, true)}, [b]⟩

/-- **C115 fails.** Two controlled T gates on the same qubits are both executable, although equal operations are looked for
during the construction of the layer (not for the last operation of a qubit); the interaction graph cannot be constructed. -/
theorem c115_twice : layerAfter 2 [gct 0 1, gct 0 1] true [] = .ok {0, 1} ∧
    interactionGraph ([gct 0 1, gct 0 1].map .std) t 1 [0, 1] = .throw ∧
    interactionGraph ([gct 0 1, gct 0 1].map .std) t 1 [1, 0] = .throw := by
  refine ⟨?_, rfl, rfl⟩
  rw [layerAfter_eq _ _ (by decide)]
  decide +kernel

/-- **C115 fails.** With three of them, the first is kept apart, but not the last two. -/
theorem c115_thrice : layerAfter 2 [gct 0 1, gct 0 1, gct 0 1] true [] = .ok {0} ∧
    layerAfter 2 [gct 0 1, gct 0 1, gct 0 1] true [0] = .ok {1, 2} ∧
    interactionGraph ([gct 0 1, gct 0 1, gct 0 1].map .std) t 1 [1, 2] = .throw := by
  refine ⟨?_, ?_, rfl⟩ <;> rw [layerAfter_eq _ _ (by decide)] <;> decide +kernel

end MQT.Layer
