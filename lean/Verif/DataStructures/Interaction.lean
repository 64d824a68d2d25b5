/-
The interaction graph of a layer, and its executable operations of a type.

Models `constructInteractionGraph` and `getExecutablesOfType` (`src/datastructures/Layer.cpp` 180-242).  The set of executable
vertices is an unordered set; it is given as the list of its elements in the order in which they are visited.

Not modelled: the text of the exceptions; compound and classically controlled operations (their types are not supported).
-/
import Verif.DataStructures.LayerCircuit
import Verif.DataStructures.UndirectedGraph

set_option autoImplicit false

namespace MQT.Layer

open MQT.IR

variable {P : Type}

/-! ### Model -/

/-- `getType`. -/
def LOp.type : LOp P → OpType
  | .std o => o.type
  | .meas _ _ => .measure

/-- `getNcontrols`. -/
def LOp.nControls : LOp P → ℕ
  | .std o => o.controls.card
  | .meas _ _ => 0

/-- The types of the `switch` (Layer.cpp 183-202). -/
def interactionType : OpType → Bool
  | .i | .h | .x | .y | .z | .s | .sdg | .t | .tdg | .v | .vdg | .u | .u2 | .p | .sx | .sxdg | .rx | .ry | .rz => true
  | _ => false

/-- The type and the number of controls are as asked for (Layer.cpp 219, 236-237). -/
def LOp.matches (ty : OpType) (n : ℕ) (o : LOp P) : Bool := o.type == ty && o.nControls == n

/-- The body of the loop (Layer.cpp 217-228).  Undefined for a vertex without an operation. -/
def interactionStep (c : List (LOp P)) (ty : OpType) (n : ℕ) (g : UG.G ℕ ℕ) (v : ℕ) : MQT.Res (UG.G ℕ ℕ) :=
  match c[v]? with
  | none => .ub
  | some o =>
    if o.matches ty n then
      match ascending o.used with
      | [a, b] => match g.addEdge a b v with
        | .ub => .ub
        | .done _ true => .throw
        | .done g' false => .ok g'
      | _ => .throw
    else .ok g

/-- `constructInteractionGraph` (Layer.cpp 180-230). -/
def interactionGraph (c : List (LOp P)) (ty : OpType) (n : ℕ) (exec : List ℕ) : MQT.Res (UG.G ℕ ℕ) :=
  if interactionType ty && n == 1 then loop (interactionStep c ty n) exec UG.G.empty else .throw

/-- `getExecutablesOfType` (Layer.cpp 231-242). -/
def executablesOf (c : List (LOp P)) (ty : OpType) (n : ℕ) : List ℕ → MQT.Res (List ℕ)
  | [] => .ok []
  | v :: l => match c[v]? with
    | none => .ub
    | some o => (executablesOf c ty n l).bind fun r => .ok (if o.matches ty n then v :: r else r)

/-! ### Specification -/

/-- Vertex `v` is an operation of type `ty` with `n` controls on the qubits `s`. -/
def Is (c : List (LOp P)) (ty : OpType) (n : ℕ) (v : ℕ) (s : Finset ℕ) : Prop :=
  ∃ o, c[v]? = some o ∧ o.type = ty ∧ o.nControls = n ∧ o.used = s

/-- `g` has an edge for every operation of `l` that is asked for, labelled with it, and no other edges or vertices. -/
structure Shows (c : List (LOp P)) (ty : OpType) (n : ℕ) (l : List ℕ) (g : UG.G ℕ ℕ) : Prop where
  edge : ∀ a b v, g.getEdge a b = .ok v ↔ v ∈ l ∧ Is c ty n v {a, b}
  noEdge : ∀ a b, (∀ v ∈ l, ¬ Is c ty n v {a, b}) → g.getEdge a b = .throw
  vertex : ∀ q, g.mapping q ≠ none ↔ ∃ v ∈ l, ∃ s, Is c ty n v s ∧ q ∈ s
  count : g.getNEdges = (l.filter fun v => (c[v]?.map fun o => o.matches ty n).getD false).length

/-! ### Lemmas -/

theorem ascending_two {s : Finset ℕ} (h : s.card = 2) : ∃ a b, ascending s = [a, b] ∧ s = {a, b} := by
  have ht : (ascending s).toFinset = s := by
    ext q
    rw [List.mem_toFinset, mem_ascending]
  have hl : (ascending s).length = 2 := by rw [← List.toFinset_card_of_nodup (ascending_nodup s), ht, h]
  obtain ⟨a, b, e⟩ := List.length_eq_two.1 hl
  refine ⟨a, b, e, ?_⟩
  rw [← ht, e]
  simp

theorem ascending_card {s : Finset ℕ} {a b : ℕ} (h : ascending s = [a, b]) : s.card = 2 ∧ s = {a, b} := by
  have ht : (ascending s).toFinset = s := by
    ext q
    rw [List.mem_toFinset, mem_ascending]
  refine ⟨?_, ?_⟩
  · rw [← ht, List.toFinset_card_of_nodup (ascending_nodup s), h]
    rfl
  · rw [← ht, h]
    simp

theorem pair_iff {a b x y : ℕ} : s(a, b) = s(x, y) ↔ ({a, b} : Finset ℕ) = {x, y} := by
  constructor
  · intro h
    rcases Sym2.eq_iff.1 h with ⟨rfl, rfl⟩ | ⟨rfl, rfl⟩
    · rfl
    · exact Finset.pair_comm _ _
  · intro h
    have h1 : a ∈ ({x, y} : Finset ℕ) := h ▸ (by simp)
    have h2 : b ∈ ({x, y} : Finset ℕ) := h ▸ (by simp)
    have h3 : x ∈ ({a, b} : Finset ℕ) := h ▸ (by simp)
    have h4 : y ∈ ({a, b} : Finset ℕ) := h ▸ (by simp)
    simp only [Finset.mem_insert, Finset.mem_singleton] at h1 h2 h3 h4
    rw [Sym2.eq_iff]
    omega

/-- The graph for the vertices `l`, in terms of its invariant. -/
structure Holds (c : List (LOp P)) (ty : OpType) (n : ℕ) (l : List ℕ) (g : UG.G ℕ ℕ) (Vs : Finset ℕ) (S : Finset (Sym2 ℕ))
    (lab : Sym2 ℕ → Option ℕ) : Prop where
  inv : UG.Inv g Vs S lab
  lab : ∀ a b v, lab s(a, b) = some v ↔ v ∈ l ∧ Is c ty n v {a, b}
  verts : ∀ q, q ∈ Vs ↔ ∃ v ∈ l, ∃ s, Is c ty n v s ∧ q ∈ s
  card : S.card = (l.filter fun v => (c[v]?.map fun o => o.matches ty n).getD false).length

theorem Holds.shows {c : List (LOp P)} {ty : OpType} {n : ℕ} {l : List ℕ} {g : UG.G ℕ ℕ} {Vs : Finset ℕ} {S : Finset (Sym2 ℕ)}
    {lab : Sym2 ℕ → Option ℕ} (h : Holds c ty n l g Vs S lab) : Shows c ty n l g := by
  have key : ∀ a b, g.getEdge a b = match lab s(a, b) with | some v => .ok v | none => .throw := by
    intro u v
    unfold UG.G.getEdge
    have i := h.inv
    cases hu : g.mapping u with
    | none =>
      have : s(u, v) ∉ S := fun hm => (i.verts u).mp (i.ends u v hm).1 hu
      rw [i.labS] at this
      simp at this; simp [this]
    | some a =>
      cases hv : g.mapping v with
      | none =>
        have : s(u, v) ∉ S := fun hm => (i.verts v).mp (i.ends u v hm).2 hv
        rw [i.labS] at this
        simp at this; simp [this]
      | some b =>
        obtain ⟨a1, a2⟩ := i.mapLt u a hu
        obtain ⟨b1, b2⟩ := i.mapLt v b hv
        simp only [i.cell a1 b1, a2, b2]
        cases lab s(u, v) <;> rfl
  refine ⟨fun a b v => ?_, fun a b hn => ?_, fun q => ?_, ?_⟩
  · rw [← h.lab, key]
    cases lab s(a, b) <;> simp
  · rw [key]
    cases hl : lab s(a, b) with
    | none => rfl
    | some v => exact absurd ((h.lab a b v).1 hl).2 (hn v ((h.lab a b v).1 hl).1)
  · rw [← h.verts, h.inv.verts]
  · exact h.inv.edges.trans h.card

/-- What makes the construction throw. -/
def Clash (c : List (LOp P)) (ty : OpType) (n : ℕ) (l : List ℕ) : Prop :=
  (∃ v ∈ l, ∃ s, Is c ty n v s ∧ s.card ≠ 2) ∨ ∃ u ∈ l, ∃ v ∈ l, u ≠ v ∧ ∃ s, Is c ty n u s ∧ Is c ty n v s

theorem is_iff {c : List (LOp P)} {ty : OpType} {n v : ℕ} {o : LOp P} (h : c[v]? = some o) (s : Finset ℕ) :
    Is c ty n v s ↔ o.matches ty n = true ∧ o.used = s := by
  unfold Is LOp.matches
  simp only [h, Option.some.injEq, exists_eq_left', Bool.and_eq_true, beq_iff_eq, and_assoc]

theorem loop_interaction (c : List (LOp P)) (ty : OpType) (n : ℕ) (l : List ℕ) (hn : l.Nodup) (hl : ∀ v ∈ l, v < c.length) :
    (Clash c ty n l ∧ loop (interactionStep c ty n) l UG.G.empty = .throw) ∨
    (¬ Clash c ty n l ∧ ∃ g Vs S lab, loop (interactionStep c ty n) l UG.G.empty = .ok g ∧ Holds c ty n l g Vs S lab) := by
  induction l using List.reverseRecOn with
  | nil =>
    right
    refine ⟨?_, UG.G.empty, ∅, ∅, fun _ => none, rfl, UG.Inv.empty, ?_, ?_, ?_⟩ <;> simp [Clash]
  | append_singleton l v ih =>
    rw [loop_append]
    have hn' := List.nodup_append.1 hn
    have hv : v ∉ l := fun h => hn'.2.2 v h v (by simp) rfl
    rcases ih hn'.1 fun w hw => hl w (by simp [hw]) with ⟨hc, e⟩ | ⟨hc, g, Vs, S, lab, e, H⟩
    · left
      refine ⟨?_, by rw [e]; rfl⟩
      rcases hc with ⟨w, hw, r⟩ | ⟨u, hu, w, hw, r⟩
      · exact Or.inl ⟨w, by simp [hw], r⟩
      · exact Or.inr ⟨u, by simp [hu], w, by simp [hw], r⟩
    · rw [e]
      obtain ⟨o, ho⟩ : ∃ o, c[v]? = some o := ⟨_, List.getElem?_eq_getElem (hl v (by simp))⟩
      have hstep : loop (interactionStep c ty n) [v] g = interactionStep c ty n g v := by
        show (interactionStep c ty n g v).bind (fun s => .ok s) = _
        cases interactionStep c ty n g v <;> rfl
      rw [show (MQT.Res.ok g).bind (loop (interactionStep c ty n) [v]) = loop (interactionStep c ty n) [v] g from rfl, hstep]
      unfold interactionStep
      simp only [ho]
      by_cases hm : o.matches ty n = true
      · simp only [hm, if_true]
        by_cases h2 : o.used.card = 2
        · obtain ⟨a, b, ea, eab⟩ := ascending_two h2
          simp only [ea]
          obtain ⟨g', t, e1, e2, i'⟩ := H.inv.addEdge a b v
          rw [e1]
          have hS : s(a, b) ∈ S ↔ ∃ u ∈ l, Is c ty n u {a, b} := by
            rw [H.inv.labS, Option.isSome_iff_exists]
            simp only [H.lab]
          have hIs : Is c ty n v {a, b} := (is_iff ho _).2 ⟨hm, eab⟩
          cases t with
          | true =>
            left
            obtain ⟨u, hu, hIu⟩ := hS.1 (e2.1 rfl)
            exact ⟨Or.inr ⟨u, by simp [hu], v, by simp, fun h => hv (h ▸ hu), _, hIu, hIs⟩, rfl⟩
          | false =>
            right
            have hno : ¬ ∃ u ∈ l, Is c ty n u {a, b} := fun h => by cases e2.2 (hS.2 h)
            have hvs : ∀ s, Is c ty n v s → s = {a, b} := fun s h => ((is_iff ho s).1 h).2.symm.trans eab
            refine ⟨?_, g', _, _, _, rfl, i', ?_, ?_, ?_⟩
            · rintro (⟨w, hw, s, hs, h3⟩ | ⟨u, hu, w, hw, hne, s, hs, hs'⟩)
              · rcases List.mem_append.1 hw with hw | hw
                · exact hc (Or.inl ⟨w, hw, s, hs, h3⟩)
                · rw [List.mem_singleton.1 hw] at hs
                  exact h3 (by rw [hvs s hs, ← eab]; exact h2)
              · rcases List.mem_append.1 hu with hu | hu <;> rcases List.mem_append.1 hw with hw | hw
                · exact hc (Or.inr ⟨u, hu, w, hw, hne, s, hs, hs'⟩)
                · rw [List.mem_singleton.1 hw] at hs'
                  exact hno ⟨u, hu, hvs s hs' ▸ hs⟩
                · rw [List.mem_singleton.1 hu] at hs
                  exact hno ⟨w, hw, hvs s hs ▸ hs'⟩
                · exact hne (by rw [List.mem_singleton.1 hu, List.mem_singleton.1 hw])
            · intro x y w
              simp only [Bool.false_eq_true, if_false, UG.setLab, List.mem_append, List.mem_singleton]
              split
              next hp =>
                rw [pair_iff] at hp
                rw [hp]
                constructor
                · intro h
                  cases h
                  exact ⟨Or.inr rfl, hIs⟩
                · rintro ⟨hw | rfl, hw'⟩
                  · exact absurd ⟨w, hw, hw'⟩ hno
                  · rfl
              next hp =>
                rw [H.lab]
                constructor
                · rintro ⟨h, h'⟩
                  exact ⟨Or.inl h, h'⟩
                · rintro ⟨h | rfl, h'⟩
                  · exact ⟨h, h'⟩
                  · exact absurd (pair_iff.2 (hvs _ h')) hp
            · intro q
              simp only [Finset.mem_insert, H.verts, List.mem_append, List.mem_singleton]
              constructor
              · rintro (rfl | rfl | ⟨w, hw, r⟩)
                · exact ⟨v, Or.inr rfl, _, hIs, by simp⟩
                · exact ⟨v, Or.inr rfl, _, hIs, by simp⟩
                · exact ⟨w, Or.inl hw, r⟩
              · rintro ⟨w, hw | rfl, s, hs, hq⟩
                · exact Or.inr (Or.inr ⟨w, hw, s, hs, hq⟩)
                · rw [hvs s hs] at hq
                  simp only [Finset.mem_insert, Finset.mem_singleton] at hq
                  tauto
            · rw [Finset.card_insert_of_notMem fun h => hno (hS.1 h), H.card, List.filter_append]
              simp [ho, hm]
        · left
          refine ⟨Or.inl ⟨v, by simp, _, (is_iff ho _).2 ⟨hm, rfl⟩, h2⟩, ?_⟩
          split
          next a b ea => exact absurd (ascending_card ea).1 h2
          next => rfl
      · right
        have hnv : ∀ s, ¬ Is c ty n v s := fun s h => hm ((is_iff ho s).1 h).1
        rw [if_neg hm]
        refine ⟨?_, g, Vs, S, lab, rfl, H.inv, ?_, ?_, ?_⟩
        · rintro (⟨w, hw, s, hs, h3⟩ | ⟨u, hu, w, hw, hne, s, hs, hs'⟩)
          · rcases List.mem_append.1 hw with hw | hw
            · exact hc (Or.inl ⟨w, hw, s, hs, h3⟩)
            · exact hnv s (List.mem_singleton.1 hw ▸ hs)
          · rcases List.mem_append.1 hu with hu | hu <;> rcases List.mem_append.1 hw with hw | hw
            · exact hc (Or.inr ⟨u, hu, w, hw, hne, s, hs, hs'⟩)
            · exact hnv s (List.mem_singleton.1 hw ▸ hs')
            · exact hnv s (List.mem_singleton.1 hu ▸ hs)
            · exact hnv s (List.mem_singleton.1 hu ▸ hs)
        · intro x y w
          rw [H.lab, List.mem_append, List.mem_singleton]
          constructor
          · rintro ⟨h, h'⟩
            exact ⟨Or.inl h, h'⟩
          · rintro ⟨h | rfl, h'⟩
            · exact ⟨h, h'⟩
            · exact absurd h' (hnv _)
        · intro q
          simp only [H.verts, List.mem_append, List.mem_singleton]
          constructor
          · rintro ⟨w, hw, r⟩
            exact ⟨w, Or.inl hw, r⟩
          · rintro ⟨w, hw | rfl, s, hs, hq⟩
            · exact ⟨w, hw, s, hs, hq⟩
            · exact absurd hs (hnv s)
        · rw [H.card, List.filter_append]
          simp [ho, hm]

theorem executablesOf_eq (c : List (LOp P)) (ty : OpType) (n : ℕ) : ∀ (l : List ℕ), (∀ v ∈ l, v < c.length) →
    executablesOf c ty n l = .ok (l.filter fun v => (c[v]?.map fun o => o.matches ty n).getD false)
  | [], _ => rfl
  | v :: l, h => by
    obtain ⟨o, ho⟩ : ∃ o, c[v]? = some o := ⟨_, List.getElem?_eq_getElem (h v (by simp))⟩
    unfold executablesOf
    simp only [ho]
    rw [executablesOf_eq c ty n l fun w hw => h w (by simp [hw])]
    show MQT.Res.ok _ = _
    rw [List.filter_cons]
    simp only [ho, Option.map_some, Option.getD_some]

theorem interactionType_eq (ty : OpType) : interactionType ty = ty.isSingleQubitGate := by
  cases ty <;> rfl

theorem used_two {o : StdOp P} (h : o.WF) (ht : o.targets.length = 1) (hc : o.controls.card = 1) : o.used.card = 2 := by
  obtain ⟨t, ht⟩ := List.length_eq_one_iff.1 ht
  obtain ⟨⟨q, b⟩, hc⟩ := Finset.card_eq_one.1 hc
  have hd := h.disj t (by rw [ht]; simp)
  unfold StdOp.used
  rw [ht, hc] at *
  simp [ctrlQubits] at hd ⊢
  exact Finset.card_pair hd

end MQT.Layer
