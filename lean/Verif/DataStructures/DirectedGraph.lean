import Verif.Common.Vec
import Mathlib.Data.Finset.Card
import Mathlib.Data.Finset.Prod
import Mathlib.Data.Finset.Image

set_option autoImplicit false

/-
Model of `qc::DirectedGraph` (include/mqt-core/datastructures/DirectedGraph.hpp:30-158).
`std::unordered_map` is a function to `Option`; printing is not modelled.
-/
namespace MQT.DG

set_option linter.unusedSectionVars false

variable {V : Type} [DecidableEq V] [Inhabited V]

/-- DirectedGraph.hpp:37-50: the data members. -/
structure G (V : Type) where
  adj : Vec (Vec Bool)
  mapping : V → Option Nat
  invMapping : Vec V
  nVertices : Nat
  nEdges : Nat
  inDegrees : Vec Nat
  outDegrees : Vec Nat

/-- DirectedGraph.hpp:53: default constructor. -/
def G.empty : G V where
  adj := ⟨0, fun _ => ⟨0, fun _ => false⟩⟩
  mapping := fun _ => none
  invMapping := ⟨0, fun _ => default⟩
  nVertices := 0
  nEdges := 0
  inDegrees := ⟨0, fun _ => 0⟩
  outDegrees := ⟨0, fun _ => 0⟩

/-- DirectedGraph.hpp:66-75: the state change of `addVertex` for a new vertex. -/
def G.insertVertex (g : G V) (v : V) : G V where
  mapping := fun w => if w = v then some g.nVertices else g.mapping w
  invMapping := g.invMapping.push v
  nVertices := g.nVertices + 1
  adj := (g.adj.map (fun row => row.push false)).push (Vec.fill (g.nVertices + 1) false)
  inDegrees := g.inDegrees.push 0
  outDegrees := g.outDegrees.push 0
  nEdges := g.nEdges

/-- DirectedGraph.hpp:59-76: `addVertex` (throws if the vertex exists). -/
def G.addVertex (g : G V) (v : V) : Out (G V) :=
  match g.mapping v with
  | some _ => .done g true
  | none => .done (g.insertVertex v) false

/-- DirectedGraph.hpp:78-83: add a vertex unless it is already there. -/
def G.ensureVertex (g : G V) (v : V) : G V :=
  match g.mapping v with
  | some _ => g
  | none => g.insertVertex v

/-- DirectedGraph.hpp:84-91: set the adjacency bit and the counters. `none` is out-of-range access
or `mapping.at` of an absent key. -/
def G.setEdge (g : G V) (u v : V) : Option (G V) := do
  let i ← g.mapping u
  let j ← g.mapping v
  let row ← g.adj.get? i
  let bit ← row.get? j
  if !bit then
    let row ← row.set? j true
    let adj ← g.adj.set? i row
    let o ← g.outDegrees.get? i
    let outDegrees ← g.outDegrees.set? i (o + 1)
    let d ← g.inDegrees.get? j
    let inDegrees ← g.inDegrees.set? j (d + 1)
    some { g with adj := adj, outDegrees := outDegrees, inDegrees := inDegrees, nEdges := g.nEdges + 1 }
  else some g

/-- DirectedGraph.hpp:77-92: `addEdge`. -/
def G.addEdge (g : G V) (u v : V) : Out (G V) :=
  match ((g.ensureVertex u).ensureVertex v).setEdge u v with
  | none => .ub
  | some g => .done g false

/-- DirectedGraph.hpp:94. -/
def G.getNEdges (g : G V) : Nat := g.nEdges

/-- DirectedGraph.hpp:93. -/
def G.getNVertices (g : G V) : Nat := g.nVertices

/-- DirectedGraph.hpp:95-103. -/
def G.getInDegree (g : G V) (v : V) : Res Nat :=
  match g.mapping v with
  | none => .throw
  | some i => match g.inDegrees.get? i with
    | none => .ub
    | some d => .ok d

/-- DirectedGraph.hpp:104-112. -/
def G.getOutDegree (g : G V) (v : V) : Res Nat :=
  match g.mapping v with
  | none => .throw
  | some i => match g.outDegrees.get? i with
    | none => .ub
    | some d => .ok d

/-- DirectedGraph.hpp:121-135. -/
def G.isEdge (g : G V) (u v : V) : Res Bool :=
  match g.mapping u, g.mapping v with
  | some i, some j => match (g.adj.get? i).bind (·.get? j) with
    | none => .ub
    | some b => .ok b
  | _, _ => .throw

/-- Client calls. -/
inductive Op (V : Type) where
  | addVertex (v : V)
  | addEdge (u v : V)

def G.step (g : G V) : Op V → Out (G V)
  | .addVertex v => g.addVertex v
  | .addEdge u v => g.addEdge u v

/-- Run a history; the client catches exceptions and goes on; `none` is undefined behaviour. -/
def G.run (g : G V) : List (Op V) → Option (G V)
  | [] => some g
  | op :: ops => match g.step op with
    | .ub => none
    | .done g _ => g.run ops

/-! ### Invariant relating a state to a vertex set and an edge set -/

/-- The state `g` represents exactly the vertices `Vs` and the edges `E`. -/
structure Inv (g : G V) (Vs : Finset V) (E : Finset (V × V)) : Prop where
  adjSize : g.adj.size = g.nVertices
  rowSize : ∀ i < g.nVertices, (g.adj.at' i).size = g.nVertices
  invSize : g.invMapping.size = g.nVertices
  inSize : g.inDegrees.size = g.nVertices
  outSize : g.outDegrees.size = g.nVertices
  mapLt : ∀ v i, g.mapping v = some i → i < g.nVertices ∧ g.invMapping.at' i = v
  mapInv : ∀ i < g.nVertices, g.mapping (g.invMapping.at' i) = some i
  verts : ∀ v, v ∈ Vs ↔ g.mapping v ≠ none
  ends : ∀ e ∈ E, e.1 ∈ Vs ∧ e.2 ∈ Vs
  adjIff : ∀ i < g.nVertices, ∀ j < g.nVertices,
    ((g.adj.at' i).at' j = true ↔ (g.invMapping.at' i, g.invMapping.at' j) ∈ E)
  inDeg : ∀ i < g.nVertices, g.inDegrees.at' i = (E.filter (fun e => e.2 = g.invMapping.at' i)).card
  outDeg : ∀ i < g.nVertices, g.outDegrees.at' i = (E.filter (fun e => e.1 = g.invMapping.at' i)).card
  edges : g.nEdges = E.card
  nVerts : g.nVertices = Vs.card

theorem Inv.empty : Inv (G.empty : G V) ∅ ∅ := by
  constructor <;> simp [G.empty]

theorem Inv.insertVertex {g : G V} {Vs : Finset V} {E : Finset (V × V)} (h : Inv g Vs E) {v : V}
    (hv : g.mapping v = none) : Inv (g.insertVertex v) (insert v Vs) E := by
  have hne : ∀ i < g.nVertices, g.invMapping.at' i ≠ v := by
    intro i hi e
    have := h.mapInv i hi
    rw [e, hv] at this; cases this
  have hVs : v ∉ Vs := by rw [h.verts]; simp [hv]
  have hE1 : ∀ e ∈ E, e.1 ≠ v := fun e he e1 => hVs (e1 ▸ (h.ends e he).1)
  have hE2 : ∀ e ∈ E, e.2 ≠ v := fun e he e1 => hVs (e1 ▸ (h.ends e he).2)
  constructor
  · simp [G.insertVertex, Vec.push, Vec.map, h.adjSize]
  · intro i hi
    simp only [G.insertVertex, Vec.push, Vec.map, Vec.fill, h.adjSize] at hi ⊢
    split
    · rfl
    · simp [h.rowSize i (by omega)]
  · simp [G.insertVertex, Vec.push, h.invSize]
  · simp [G.insertVertex, Vec.push, h.inSize]
  · simp [G.insertVertex, Vec.push, h.outSize]
  · intro w i hw
    simp only [G.insertVertex, Vec.push, h.invSize] at hw ⊢
    split at hw
    · cases hw; subst w; simp
    · obtain ⟨h1, h2⟩ := h.mapLt w i hw
      refine ⟨by omega, ?_⟩
      rw [if_neg (by omega)]; exact h2
  · intro i hi
    simp only [G.insertVertex, Vec.push, h.invSize] at hi ⊢
    by_cases e : i = g.nVertices
    · simp [e]
    · simp only [if_neg e]
      rw [if_neg (hne i (by omega))]
      exact h.mapInv i (by omega)
  · intro w
    simp only [G.insertVertex, Finset.mem_insert, h.verts]
    by_cases e : w = v <;> simp [e]
  · intro e he
    exact ⟨Finset.mem_insert_of_mem (h.ends e he).1, Finset.mem_insert_of_mem (h.ends e he).2⟩
  · intro i hi j hj
    simp only [G.insertVertex, Vec.push, Vec.map, Vec.fill, h.adjSize, h.invSize] at hi hj ⊢
    by_cases e : i = g.nVertices
    · simp only [e, if_true]
      constructor
      · intro h; cases h
      · intro hm; exact absurd rfl (hE1 _ hm)
    · simp only [if_neg e, h.rowSize i (by omega)]
      by_cases e2 : j = g.nVertices
      · simp only [e2, if_true]
        constructor
        · intro h; cases h
        · intro hm; exact absurd rfl (hE2 _ hm)
      · simp only [if_neg e2]
        exact h.adjIff i (by omega) j (by omega)
  · intro i hi
    simp only [G.insertVertex, Vec.push, h.inSize, h.invSize] at hi ⊢
    by_cases e : i = g.nVertices
    · simp only [e, if_true]
      rw [Finset.filter_false_of_mem hE2]; rfl
    · simp only [if_neg e]; exact h.inDeg i (by omega)
  · intro i hi
    simp only [G.insertVertex, Vec.push, h.outSize, h.invSize] at hi ⊢
    by_cases e : i = g.nVertices
    · simp only [e, if_true]
      rw [Finset.filter_false_of_mem hE1]; rfl
    · simp only [if_neg e]; exact h.outDeg i (by omega)
  · exact h.edges
  · simp [G.insertVertex, Finset.card_insert_of_notMem hVs, h.nVerts]

theorem Inv.ensureVertex {g : G V} {Vs : Finset V} {E : Finset (V × V)} (h : Inv g Vs E) (v : V) :
    Inv (g.ensureVertex v) (insert v Vs) E := by
  unfold G.ensureVertex
  split
  · rename_i i hv
    have : v ∈ Vs := by rw [h.verts]; simp [hv]
    rwa [Finset.insert_eq_of_mem this]
  · rename_i hv; exact h.insertVertex hv

theorem card_filter_insert {E : Finset (V × V)} {a : V × V} (ha : a ∉ E) (p : V × V → Prop)
    [DecidablePred p] :
    ((insert a E).filter p).card = (E.filter p).card + if p a then 1 else 0 := by
  rw [Finset.filter_insert]
  split
  · rw [Finset.card_insert_of_notMem (by simp [ha])]
  · rfl

theorem Inv.setEdge {g : G V} {Vs : Finset V} {E : Finset (V × V)} (h : Inv g Vs E) {u v : V}
    (hu : u ∈ Vs) (hv : v ∈ Vs) :
    ∃ g', g.setEdge u v = some g' ∧ Inv g' Vs (insert (u, v) E) ∧
      g'.mapping = g.mapping ∧ g'.nVertices = g.nVertices ∧ g'.invMapping = g.invMapping := by
  rw [h.verts] at hu hv
  obtain ⟨i, hi⟩ := Option.ne_none_iff_exists'.mp hu
  obtain ⟨j, hj⟩ := Option.ne_none_iff_exists'.mp hv
  obtain ⟨hi1, hi2⟩ := h.mapLt u i hi
  obtain ⟨hj1, hj2⟩ := h.mapLt v j hj
  have hinj : ∀ a b, a < g.nVertices → b < g.nVertices →
      (g.invMapping.at' a = g.invMapping.at' b ↔ a = b) := by
    intro a b ha hb
    constructor
    · intro e
      have h1 := h.mapInv a ha
      rw [e, h.mapInv b hb] at h1
      exact (Option.some.inj h1).symm
    · rintro rfl; rfl
  by_cases hb : (g.adj.at' i).at' j = true
  · refine ⟨g, ?_, ?_, rfl, rfl, rfl⟩
    · simp [G.setEdge, hi, hj, Vec.get?, h.adjSize, h.rowSize i hi1, hi1, hj1, hb]
    · have : (u, v) ∈ E := by rw [← hi2, ← hj2]; exact (h.adjIff i hi1 j hj1).mp hb
      rwa [Finset.insert_eq_of_mem this]
  · have hnot : (u, v) ∉ E := by
      rw [← hi2, ← hj2]; exact fun hm => hb ((h.adjIff i hi1 j hj1).mpr hm)
    have hb : (g.adj.at' i).at' j = false := by simpa using hb
    refine ⟨{ g with
        adj := ⟨g.adj.size, fun k => if k = i then
          ⟨(g.adj.at' i).size, fun l => if l = j then true else (g.adj.at' i).at' l⟩ else g.adj.at' k⟩
        outDegrees := ⟨g.outDegrees.size, fun k => if k = i then g.outDegrees.at' i + 1 else g.outDegrees.at' k⟩
        inDegrees := ⟨g.inDegrees.size, fun k => if k = j then g.inDegrees.at' j + 1 else g.inDegrees.at' k⟩
        nEdges := g.nEdges + 1 }, ?_, ?_, ?_, ?_, ?_⟩
    · simp [G.setEdge, hi, hj, Vec.get?, Vec.set?, h.adjSize, h.rowSize i hi1, hi1, hj1, hb,
        h.outSize, h.inSize]
    · constructor
      · exact h.adjSize
      · intro k hk
        simp only at hk ⊢
        split
        · exact h.rowSize i hi1
        · exact h.rowSize k hk
      · exact h.invSize
      · exact h.inSize
      · exact h.outSize
      · exact h.mapLt
      · exact h.mapInv
      · exact h.verts
      · intro e he
        rcases Finset.mem_insert.mp he with e1 | he
        · subst e1; exact ⟨(h.verts u).mpr (by simp [hi]), (h.verts v).mpr (by simp [hj])⟩
        · exact h.ends e he
      · intro a ha b hb'
        simp only [Finset.mem_insert, Prod.mk.injEq]
        rw [← hi2, ← hj2, hinj a i ha hi1, hinj b j hb' hj1]
        by_cases e : a = i
        · subst e
          by_cases e2 : b = j
          · simp [e2]
          · simp [e2]; exact h.adjIff a ha b hb'
        · simp [e]; exact h.adjIff a ha b hb'
      · intro a ha
        simp only
        rw [card_filter_insert hnot]
        have : ((u, v).2 = g.invMapping.at' a) ↔ a = j := by
          rw [← hj2, hinj j a hj1 ha]; exact eq_comm
        simp only [this]
        by_cases e : a = j
        · subst e; simp [h.inDeg a ha]
        · simp [e, h.inDeg a ha]
      · intro a ha
        simp only
        rw [card_filter_insert hnot]
        have : ((u, v).1 = g.invMapping.at' a) ↔ a = i := by
          rw [← hi2, hinj i a hi1 ha]; exact eq_comm
        simp only [this]
        by_cases e : a = i
        · subst e; simp [h.outDeg a ha]
        · simp [e, h.outDeg a ha]
      · simp only
        rw [Finset.card_insert_of_notMem hnot, h.edges]
      · exact h.nVerts
    · rfl
    · rfl
    · rfl

end MQT.DG
