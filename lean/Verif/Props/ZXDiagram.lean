/-
Property C57: the bookkeeping of ZX diagrams.
-/
import Verif.ZX.Graph

set_option autoImplicit false

noncomputable section

open Classical

open Function (update)

namespace MQT.ZX

open Diagram

/-! ### Specification -/

/-- The operations. -/
inductive Op
  | addVertex (d : VData)
  | addEdge (u v : ℕ) (t : EType)
  | removeEdge (u v : ℕ)
  | removeVertex (v : ℕ)
  | addPhase (v : ℕ) (p : Phase)
  | addEdgeParallelAware (u v : ℕ) (t : EType)

/-- When the operations are meant to be used: on existing vertices; no self loops; single edges where the code
handles a single edge. -/
def Op.Pre (G : Graph) : Op → Prop
  | .addVertex _ => True
  | .addEdge u v _ => (∃ d, G.vert u = some d) ∧ (∃ d, G.vert v = some d) ∧ u ≠ v
  | .removeEdge u v => (∃ d, G.vert u = some d) ∧ (∃ d, G.vert v = some d) ∧ u ≠ v ∧ G.total u v = 1
  | .removeVertex v => ∃ d, G.vert v = some d
  | .addPhase v _ => ∃ d, G.vert v = some d
  | .addEdgeParallelAware u v _ => (∃ d, G.vert u = some d) ∧ (∃ d, G.vert v = some d) ∧ (u ≠ v → G.total u v ≤ 1)

/-- What the operations are meant to do. -/
def Op.Effect (G : Graph) : Op → Graph → Prop
  | .addVertex d, G' => ∃ n, G.vert n = none ∧ G' = { G with vert := update G.vert n (some d) }
  | .addEdge u v t, G' => G' = G.setM u v fun s => if s = t then G.m u v s + 1 else G.m u v s
  | .removeEdge u v, G' => G' = G.setM u v fun _ => 0
  | .removeVertex v, G' => G' = ⟨update G.vert v none, fun a b t => if a = v ∨ b = v then 0 else G.m a b t⟩
  | .addPhase v p, G' => G' = G.addPhase v p
  | .addEdgeParallelAware u v t, G' =>
    ∃ du dv, G.vert u = some du ∧ G.vert v = some dv ∧
      if u = v then G' = if du.type ≠ .boundary ∧ t = .hadamard then G.addPhase u piPhase else G
      else if G.total u v = 0 then G' = G.setM u v fun s => if s = t then 1 else 0
      else if du.type = .boundary ∨ dv.type = .boundary then G' = G
      else G' = G.merge u v du.type dv.type t

/-- The operations of the code. -/
def Op.run (D : Diagram) : Op → Option Diagram
  | .addVertex d => some (D.addVertex d).1
  | .addEdge u v t => D.addEdge u v t
  | .removeEdge u v => D.removeEdge u v
  | .removeVertex v => D.removeVertex v
  | .addPhase v p => D.addPhase v p
  | .addEdgeParallelAware u v t => D.addEdgeParallelAware u v t

/-- A history of operations, each used as intended, with the multigraph reached. -/
inductive History : Graph → List Op → Graph → Prop
  | nil (G : Graph) : History G [] G
  | cons {G G₁ G₂ : Graph} {o : Op} {l : List Op} (pre : o.Pre G) (eff : o.Effect G G₁) (rest : History G₁ l G₂) :
      History G (o :: l) G₂

/-- All operations are used as intended on the multigraph stored at that point (so operations may depend on the
vertices that `addVertex` returned). -/
def Intended : Diagram → List Op → Prop
  | _, [] => True
  | D, o :: l => o.Pre (graph D) ∧ ∀ D', o.run D = some D' → Intended D' l

def runAll (D : Diagram) : List Op → Option Diagram
  | [] => some D
  | o :: l => (o.run D).bind fun D1 => runAll D1 l

/-! ### The property -/

/-- **C57.** One operation, used as intended on a diagram with right bookkeeping: it is defined, does to the stored
multigraph what it is meant to do, and the bookkeeping stays right. -/
theorem c57_step {D : Diagram} (h : D.Inv) (o : Op) (hp : o.Pre (graph D)) :
    ∃ D', o.run D = some D' ∧ D'.Inv ∧ o.Effect (graph D) (graph D') := by
  cases o with
  | addVertex d => exact ⟨_, rfl, (addVertex_inv h d).1, _, (graph_addVertex h d).1, (graph_addVertex h d).2⟩
  | addEdge u v t =>
    obtain ⟨hu, hv, huv⟩ := hp
    obtain ⟨h1, h2⟩ := added_inv h hu hv huv t
    refine ⟨_, h1, h2, ?_⟩
    have e := graph_added h hu hv huv t
    have e2 : ∀ s, (graph D).m u v s = D.mult u v s := fun s => if_pos ⟨hu, hv⟩
    show graph _ = _
    rw [e]
    simp only [e2]
  | removeEdge u v =>
    obtain ⟨hu, hv, huv, hc⟩ := hp
    rw [graph_total hu hv] at hc
    obtain ⟨D', h1, h2, h3⟩ := removeEdge_inv h hu hv huv hc
    subst h3
    exact ⟨_, h1, h2, graph_dropped hu hv huv⟩
  | removeVertex v =>
    obtain ⟨h1, h2⟩ := removeVertex_inv h hp
    exact ⟨_, h1, h2, graph_without D v⟩
  | addPhase v p =>
    obtain ⟨h1, h2⟩ := addPhase_eq h hp p
    exact ⟨_, h1, h2, graph_phased D v p⟩
  | addEdgeParallelAware u v t =>
    obtain ⟨⟨du, hu⟩, ⟨dv, hv⟩, hc⟩ := hp
    have au : D.Alive u := ⟨du, hu⟩
    have av : D.Alive v := ⟨dv, hv⟩
    by_cases huv : u = v
    · subst huv
      obtain ⟨D', h1, h2, h3⟩ := addEPA_self h hu t
      refine ⟨D', h1, h2, du, du, hu, hu, ?_⟩
      rw [if_pos rfl, h3]
      split_ifs
      · exact graph_phased _ _ _
      · rfl
    · have hc1 := hc huv
      rw [graph_total au av] at hc1
      obtain ⟨D', h1, h2, h3⟩ := addEPA_result h hu hv huv hc1 t
      refine ⟨D', h1, h2, du, dv, hu, hv, ?_⟩
      rw [if_neg huv, graph_total au av]
      have e2 : ∀ s, (graph D).m u v s = D.mult u v s := fun s => if_pos ⟨au, av⟩
      have hsum := conn_eq D u v
      cases h3 with
      | new h0 =>
        rw [if_pos h0, graph_added h au av huv]
        congr 1
        funext s
        have : D.mult u v s = 0 := by cases s <;> omega
        rw [this]
      | boundary h0 hb => rw [if_neg (by omega), if_pos hb]
      | cancel h0 hm b1 b2 ht =>
        rw [if_neg (by omega), if_neg (by tauto), graph_dropped au av huv]
        unfold Graph.merge
        rw [e2, if_pos (by omega), if_neg]
        unfold Graph.Equates
        rw [← ht]
        cases t <;> simp
      | idem h0 hm b1 b2 ht =>
        rw [if_neg (by omega), if_neg (by tauto)]
        unfold Graph.merge
        rw [e2, if_pos (by omega), if_pos (show Graph.Equates _ _ _ from ht)]
      | phase h0 hm b1 b2 ht =>
        rw [if_neg (by omega), if_neg (by tauto), graph_phased]
        unfold Graph.merge
        have hz : D.mult u v t = 0 := by cases t <;> simp only [EType.toggle] at hm <;> omega
        rw [e2, if_neg (by omega), if_neg]
        unfold Graph.Equates
        rw [← ht]
        cases t <;> simp
      | flip h0 hm b1 b2 ht =>
        rw [if_neg (by omega), if_neg (by tauto), graph_phased, graph_flipped h au av huv h0]
        unfold Graph.merge
        have hz : D.mult u v t = 0 := by cases t <;> simp only [EType.toggle] at hm <;> omega
        rw [e2, if_neg (by omega), if_pos (show Graph.Equates _ _ _ from ht)]

theorem empty_inv : Diagram.empty.Inv :=
  ⟨fun _ _ => rfl, fun u => by simp [empty], List.nodup_nil, by show (0:ℤ) = ((Finset.filter _ (Finset.range 0)).card : ℤ); simp, by simp [empty, verts],
    fun u v t hu => by obtain ⟨d, hd⟩ := hu; simp [empty] at hd, fun u hu => by obtain ⟨d, hd⟩ := hu; simp [empty] at hd⟩

/-- **C57** (partial: the claim is about all histories; it fails outside of the intended use, see below).
Through any history of operations used as intended, from the empty diagram: nothing is undefined, the
multigraph stored is the one the history describes, adjacency is symmetric and mentions existing vertices only,
without self loops, exactly the other slots are up for reuse, and both counters are right. -/
theorem c57_history_partial (l : List Op) (hl : Intended .empty l) :
    ∃ D, runAll .empty l = some D ∧ History (graph .empty) l (graph D) ∧
      D.nvertices = D.verts.card ∧
      2 * D.nedges = ∑ u ∈ D.verts, ((D.adj u).length : ℤ) ∧
      (∀ u v t, D.Alive u → D.Alive v → (D.adj u).count ⟨v, t⟩ = (D.adj v).count ⟨u, t⟩) ∧
      (∀ u, D.Alive u → ∀ e ∈ D.adj u, D.Alive e.tgt ∧ e.tgt ≠ u) ∧
      (∀ u, u ∈ D.deleted ↔ u < D.size ∧ ¬ D.Alive u) := by
  have main : ∀ (l : List Op) (D₀ : Diagram), D₀.Inv → Intended D₀ l →
      ∃ D, runAll D₀ l = some D ∧ History (graph D₀) l (graph D) ∧ D.Inv := by
    intro l
    induction l with
    | nil => intro D₀ h _; exact ⟨D₀, rfl, .nil _, h⟩
    | cons o l ih =>
      intro D₀ h hl
      obtain ⟨hp, hrest⟩ := hl
      obtain ⟨D1, h1, h2, h3⟩ := c57_step h o hp
      obtain ⟨D, h4, h5, h6⟩ := ih D1 h2 (hrest _ h1)
      refine ⟨D, ?_, .cons hp h3 h5, h6⟩
      show (o.run D₀).bind _ = _
      rw [h1]
      exact h4
  obtain ⟨D, h1, h2, h3⟩ := main l .empty empty_inv hl
  refine ⟨D, h1, h2, h3.nv, h3.ne, h3.sym, h3.nb, ?_⟩
  intro u
  rw [h3.del]
  constructor
  · rintro ⟨a, b⟩
    exact ⟨a, by rintro ⟨d, hd⟩; rw [b] at hd; exact absurd hd (by simp)⟩
  · rintro ⟨a, b⟩
    refine ⟨a, ?_⟩
    cases hx : D.vert u with
    | none => rfl
    | some d => exact absurd ⟨d, hx⟩ b

/-! ### Outside of the intended use -/

/-- A Z spider without phase. -/
def spider : VData := ⟨0, Phase.zero, .z⟩

/-- Two connected spiders, with the given edges. -/
def twoSpiders (l : List EType) : List Op :=
  [.addVertex spider, .addVertex spider] ++ l.map fun t => .addEdge 0 1 t

theorem run_two (l : List EType) : ∃ D, runAll .empty (twoSpiders l) = some D ∧ D.size = 2 ∧ D.nedges = l.length ∧
    D.nvertices = 2 ∧ D.adj 0 = (l.map fun t => ⟨1, t⟩) ∧ D.adj 1 = (l.map fun t => ⟨0, t⟩) ∧ D.Alive 0 ∧ D.Alive 1 ∧
    D.deleted = [] := by
  have gen : ∀ (l : List EType) (D₀ : Diagram), D₀.size = 2 →
      ∃ D, runAll D₀ (l.map fun t => Op.addEdge 0 1 t) = some D ∧ D.size = 2 ∧ D.nedges = D₀.nedges + l.length ∧
        D.nvertices = D₀.nvertices ∧ D.adj 0 = D₀.adj 0 ++ (l.map fun t => ⟨1, t⟩) ∧
        D.adj 1 = D₀.adj 1 ++ (l.map fun t => ⟨0, t⟩) ∧ D.vert = D₀.vert ∧ D.deleted = D₀.deleted := by
    intro l
    induction l with
    | nil => intro D₀ h; exact ⟨D₀, rfl, h, by simp, rfl, by simp, by simp, rfl, rfl⟩
    | cons t l ih =>
      intro D₀ h
      obtain ⟨D, h1, h2, h3, h4, h5, h6, h7, h8⟩ := ih (D₀.added 0 1 t) h
      refine ⟨D, ?_, h2, ?_, h4, ?_, ?_, h7, h8⟩
      · show (D₀.addEdge 0 1 t).bind _ = _
        have : D₀.addEdge 0 1 t = some (D₀.added 0 1 t) := by
          unfold addEdge added
          rw [h, if_pos (by omega)]
          simp
        rw [this]
        exact h1
      · rw [h3]; simp [added]; ring
      · rw [h5]; simp [added]
      · rw [h6]; simp [added]
  obtain ⟨D, h1, h2, h3, h4, h5, h6, h7, h8⟩ := gen l ((Diagram.empty.addVertex spider).1.addVertex spider).1 rfl
  refine ⟨D, h1, h2, by rw [h3]; simp [addVertex, empty], by rw [h4]; simp [addVertex, empty], by rw [h5]; simp [addVertex, empty],
    by rw [h6]; simp [addVertex, empty], ⟨spider, by rw [h7]; simp [addVertex, empty]⟩,
    ⟨spider, by rw [h7]; simp [addVertex, empty]⟩, by rw [h8]; simp [addVertex, empty]⟩

theorem runAll_append (l l' : List Op) (D₀ : Diagram) :
    runAll D₀ (l ++ l') = (runAll D₀ l).bind fun D => runAll D l' := by
  induction l generalizing D₀ with
  | nil => rfl
  | cons o l ih =>
    show (o.run D₀).bind (fun D1 => runAll D1 (l ++ l')) = ((o.run D₀).bind _).bind _
    cases o.run D₀ with
    | none => rfl
    | some D1 => exact ih D1

/-- **C57** fails for `removeEdge` between vertices with two edges, which `addEdge` happily creates: all edges are
removed, but the counter goes down by one only. -/
theorem c57_removeEdge_parallel : ∃ D, runAll .empty (twoSpiders [.simple, .hadamard] ++ [.removeEdge 0 1]) = some D ∧
    D.nedges = 1 ∧ D.adj 0 = [] ∧ D.adj 1 = [] := by
  obtain ⟨D, h1, h2, h3, h4, h5, h6, _⟩ := run_two [.simple, .hadamard]
  rw [runAll_append, h1]
  refine ⟨{ D with adj := update (update D.adj 0 []) 1 [], nedges := 1 }, ?_, rfl, by simp, by simp⟩
  simp [runAll, Op.run, removeEdge, removeHalfEdge, h2, h3, h5, h6]

/-- **C57** fails for `removeEdge` between vertices without an edge: the counter goes below the number of edges
(in the code, to 2⁶⁴ − 1). -/
theorem c57_removeEdge_missing : ∃ D, runAll .empty (twoSpiders [] ++ [.removeEdge 0 1]) = some D ∧
    D.nedges = -1 ∧ D.adj 0 = [] ∧ D.adj 1 = [] := by
  obtain ⟨D, h1, h2, h3, h4, h5, h6, _⟩ := run_two []
  rw [runAll_append, h1]
  refine ⟨{ D with adj := update (update D.adj 0 []) 1 [], nedges := -1 }, ?_, rfl, by simp, by simp⟩
  simp [runAll, Op.run, removeEdge, removeHalfEdge, h2, h3, h5, h6]

/-- **C57** fails for removing a vertex twice: the slot is handed out twice afterwards, so that two vertices added
share it. -/
theorem c57_removeVertex_twice : ∃ D, runAll .empty (twoSpiders [] ++ [.removeVertex 1, .removeVertex 1]) = some D ∧
    D.nvertices = 0 ∧ D.Alive 0 ∧ ∀ d d', (D.addVertex d).2 = 1 ∧ ((D.addVertex d).1.addVertex d').2 = 1 := by
  obtain ⟨D, h1, h2, h3, h4, h5, h6, ⟨d0, h7⟩, h8, h9⟩ := run_two []
  rw [runAll_append, h1]
  refine ⟨{ D with deleted := [1, 1], vert := update D.vert 1 none, nvertices := 0 }, ?_, rfl, ⟨d0, ?_⟩, ?_⟩
  · simp [runAll, Op.run, removeVertex, dropEdges, h2, h4, h6, h9]
  · simp [h7]
  · intro d d'
    simp [addVertex]

/-- **C57** fails for self loops, which `addEdge` happily creates: removing the vertex is undefined behaviour. -/
theorem c57_self_loop : runAll .empty [.addVertex spider, .addEdge 0 0 .simple, .removeVertex 0] = none := by
  simp [runAll, Op.run, addVertex, empty, addEdge, removeVertex, dropEdges]

/-! ### Examples -/

/-- The theorem applies to a history with parallel edges and reuse of a slot. -/
example : Intended .empty [.addVertex spider, .addVertex spider, .addEdgeParallelAware 0 1 .simple,
    .addEdgeParallelAware 0 1 .hadamard, .removeVertex 0, .addVertex spider, .addEdge 1 0 .simple, .removeEdge 0 1] := by
  simp [Intended, Op.run, Op.Pre, addVertex, empty, graph, Graph.total, addEdgeParallelAware, findEdge, addEdge, type,
    spider, addPhase, Alive, mult, removeVertex, dropEdges, removeHalfEdge, update, removeEdge]

end MQT.ZX
