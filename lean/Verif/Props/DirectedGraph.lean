import Verif.DataStructures.DirectedGraph

set_option autoImplicit false

/-! C02: directed graph bookkeeping equals the edge set. -/

namespace MQT.DG

variable {V : Type} [DecidableEq V] [Inhabited V]

/-- Specification: the vertices mentioned by a history. -/
def verticesOf : List (Op V) → Finset V
  | [] => ∅
  | .addVertex v :: h => insert v (verticesOf h)
  | .addEdge u v :: h => insert u (insert v (verticesOf h))

/-- Specification: the edges added by a history. -/
def edgesOf : List (Op V) → Finset (V × V)
  | [] => ∅
  | .addVertex _ :: h => edgesOf h
  | .addEdge u v :: h => insert (u, v) (edgesOf h)

theorem run_inv (h : List (Op V)) : ∀ (g : G V) (Vs : Finset V) (E : Finset (V × V)), Inv g Vs E →
    ∃ g', g.run h = some g' ∧ Inv g' (Vs ∪ verticesOf h) (E ∪ edgesOf h) := by
  induction h with
  | nil => intro g Vs E hi; exact ⟨g, rfl, by simpa [verticesOf, edgesOf] using hi⟩
  | cons op h ih =>
    intro g Vs E hi
    cases op with
    | addVertex v =>
      have key : ∃ g1 b, g.addVertex v = .done g1 b ∧ Inv g1 (insert v Vs) E := by
        unfold G.addVertex
        split
        · rename_i i hv
          have : v ∈ Vs := by rw [hi.verts]; simp [hv]
          exact ⟨g, true, rfl, by rwa [Finset.insert_eq_of_mem this]⟩
        · rename_i hv
          exact ⟨_, _, rfl, hi.insertVertex hv⟩
      obtain ⟨g1, b, e, i1⟩ := key
      obtain ⟨g2, e2, i2⟩ := ih g1 _ _ i1
      refine ⟨g2, by simp [G.run, G.step, e, e2], ?_⟩
      simpa [verticesOf, edgesOf, Finset.insert_union, Finset.union_insert] using i2
    | addEdge u v =>
      have i1 := (hi.ensureVertex u).ensureVertex v
      obtain ⟨g1, e, i2, _⟩ := i1.setEdge (u := u) (v := v) (by simp) (by simp)
      obtain ⟨g2, e2, i3⟩ := ih g1 _ _ i2
      refine ⟨g2, by simp [G.run, G.step, G.addEdge, e, e2], ?_⟩
      simp only [verticesOf, edgesOf]
      rw [Finset.insert_union, Finset.insert_union, Finset.insert_union] at i3
      rw [Finset.union_insert, Finset.union_insert, Finset.union_insert, Finset.insert_comm u v]
      exact i3

/-- **C02.** After every history of `addVertex`/`addEdge` calls (no call runs into undefined
behaviour): `isEdge` answers membership in the set of added edges for known vertices and throws for
unknown ones, the counters are the cardinalities of the edge set and of its fibres. -/
theorem c02_directedGraph_bookkeeping (h : List (Op V)) :
    ∃ g : G V, G.empty.run h = some g ∧
      g.getNVertices = (verticesOf h).card ∧
      g.getNEdges = (edgesOf h).card ∧
      (∀ u v, g.isEdge u v =
        if u ∈ verticesOf h ∧ v ∈ verticesOf h then .ok (decide ((u, v) ∈ edgesOf h)) else .throw) ∧
      (∀ v, g.getInDegree v =
        if v ∈ verticesOf h then .ok ((edgesOf h).filter (fun e => e.2 = v)).card else .throw) ∧
      (∀ v, g.getOutDegree v =
        if v ∈ verticesOf h then .ok ((edgesOf h).filter (fun e => e.1 = v)).card else .throw) := by
  obtain ⟨g, e, hi⟩ := run_inv h G.empty ∅ ∅ Inv.empty
  simp only [Finset.empty_union] at hi
  refine ⟨g, e, hi.nVerts, hi.edges, ?_, ?_, ?_⟩
  · intro u v
    have hu := hi.verts u
    have hv := hi.verts v
    unfold G.isEdge
    cases hmu : g.mapping u with
    | none => simp [hmu] at hu; simp [hu]
    | some i =>
      cases hmv : g.mapping v with
      | none => simp [hmv] at hv; simp [hv]
      | some j =>
        simp [hmu] at hu; simp [hmv] at hv
        obtain ⟨hi1, hi2⟩ := hi.mapLt u i hmu
        obtain ⟨hj1, hj2⟩ := hi.mapLt v j hmv
        have := hi.adjIff i hi1 j hj1
        rw [hi2, hj2] at this
        simp [Vec.get?, hi.adjSize, hi.rowSize i hi1, hi1, hj1, hu, hv, ← this]
  · intro v
    have hv := hi.verts v
    unfold G.getInDegree
    cases hmv : g.mapping v with
    | none => simp [hmv] at hv; simp [hv]
    | some j =>
      simp [hmv] at hv
      obtain ⟨hj1, hj2⟩ := hi.mapLt v j hmv
      have := hi.inDeg j hj1
      rw [hj2] at this
      simp [Vec.get?, hi.inSize, hj1, hv, this]
  · intro v
    have hv := hi.verts v
    unfold G.getOutDegree
    cases hmv : g.mapping v with
    | none => simp [hmv] at hv; simp [hv]
    | some j =>
      simp [hmv] at hv
      obtain ⟨hj1, hj2⟩ := hi.mapLt v j hmv
      have := hi.outDeg j hj1
      rw [hj2] at this
      simp [Vec.get?, hi.outSize, hj1, hv, this]

/-- Concrete case: a repeated edge, a self-loop and a repeated vertex; 3 distinct edges, vertex 2 has
in-degree 2. -/
example :
    ((G.empty : G Nat).run [.addEdge 1 2, .addVertex 1, .addEdge 1 2, .addEdge 2 2, .addEdge 2 7]).map
      (fun g => (g.getNEdges, g.getInDegree 2, g.getOutDegree 2, g.isEdge 2 1, g.isEdge 1 9)) =
    some (3, .ok 2, .ok 2, .ok false, .throw) := by decide

end MQT.DG
