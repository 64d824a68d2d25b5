import Verif.Common.Vec
import Mathlib.Data.Sym.Sym2
import Mathlib.Data.Finset.Card

set_option autoImplicit false

/-
Model of `qc::UndirectedGraph` (include/mqt-core/datastructures/UndirectedGraph.hpp:43-232).
Not modelled: printing, `isAdjacentEdge`.
-/
namespace MQT.UG

set_option linter.unusedSectionVars false

variable {V E : Type} [DecidableEq V] [Inhabited V]

/-- UndirectedGraph.hpp:49-60: data members; row `i` of the triangular matrix holds columns `i..n-1`. -/
structure G (V E : Type) where
  adj : Vec (Vec (Option E))
  mapping : V → Option Nat
  invMapping : Vec V
  nVertices : Nat
  nEdges : Nat
  degrees : Vec Nat

def G.empty : G V E where
  adj := ⟨0, fun _ => ⟨0, fun _ => none⟩⟩
  mapping := fun _ => none
  invMapping := ⟨0, fun _ => default⟩
  nVertices := 0
  nEdges := 0
  degrees := ⟨0, fun _ => 0⟩

/-- UndirectedGraph.hpp:66-75: state change of `addVertex` for a new vertex. -/
def G.insertVertex (g : G V E) (v : V) : G V E where
  mapping := fun w => if w = v then some g.nVertices else g.mapping w
  invMapping := g.invMapping.push v
  nVertices := g.nVertices + 1
  adj := (g.adj.map (fun row => row.push none)).push (Vec.fill 1 none)
  degrees := g.degrees.push 0
  nEdges := g.nEdges

/-- UndirectedGraph.hpp:63-81: `addVertex`. -/
def G.addVertex (g : G V E) (v : V) : Out (G V E) :=
  match g.mapping v with
  | none => .done (g.insertVertex v) false
  | some _ => .done g true

/-- UndirectedGraph.hpp:83-88. -/
def G.ensureVertex (g : G V E) (v : V) : G V E :=
  match g.mapping v with
  | some _ => g
  | none => g.insertVertex v

/-- `adjacencyMatrix[a][b]`. -/
def get2 (m : Vec (Vec (Option E))) (a b : Nat) : Option (Option E) := (m.get? a).bind (·.get? b)

/-- `adjacencyMatrix[a][b] = e`. -/
def set2 (m : Vec (Vec (Option E))) (a b : Nat) (e : Option E) : Option (Vec (Vec (Option E))) :=
  (m.get? a).bind fun row => (row.set? b e).bind fun row => m.set? a row

/-- `++degrees[i]`. -/
def incr (d : Vec Nat) (i : Nat) : Option (Vec Nat) := (d.get? i).bind fun x => d.set? i (x + 1)

/-- UndirectedGraph.hpp:91-101 and 103-113: the two branches of `addEdge`, which write the cell
`(a, b)` and the degrees of `i` and `j`. -/
def G.writeEdge (g : G V E) (i j a b : Nat) (e : E) : Out (G V E) :=
  match get2 g.adj a b with
  | none => .ub
  | some (some _) => .done g true
  | some none =>
    match (incr g.degrees i).bind (fun d => if i ≠ j then incr d j else some d),
        set2 g.adj a b (some e) with
    | some degrees, some adj =>
      .done { g with degrees := degrees, nEdges := g.nEdges + 1, adj := adj } false
    | _, _ => .ub

/-- UndirectedGraph.hpp:82-118: `addEdge`. -/
def G.addEdge (g : G V E) (u v : V) (e : E) : Out (G V E) :=
  let g := (g.ensureVertex u).ensureVertex v
  match g.mapping u, g.mapping v with
  | some i, some j =>
    if i < j then g.writeEdge i j i (j - i) e else g.writeEdge i j j (i - j) e
  | _, _ => .ub

/-- UndirectedGraph.hpp:119-120. -/
def G.getNVertices (g : G V E) : Nat := g.nVertices
def G.getNEdges (g : G V E) : Nat := g.nEdges

/-- The cell read by `getEdge`, `getNeighbours`, `getAdjacentEdges` for indices `i`, `j`
(UndirectedGraph.hpp:124-127). -/
def G.cell (g : G V E) (i j : Nat) : Option (Option E) :=
  if i < j then get2 g.adj i (j - i) else get2 g.adj j (i - j)

/-- UndirectedGraph.hpp:121-132: `getEdge` (`mapping.at` throws for unknown vertices). -/
def G.getEdge (g : G V E) (v u : V) : Res E :=
  match g.mapping v, g.mapping u with
  | some i, some j => match g.cell i j with
    | none => .ub
    | some none => .throw
    | some (some e) => .ok e
  | _, _ => .throw

/-- UndirectedGraph.hpp:151-166: `getNeighbours` (the set as the list of its insertions). -/
def G.getNeighbours (g : G V E) (v : V) : Res (List V) :=
  match g.mapping v with
  | none => .throw
  | some i =>
    match (List.range g.nVertices).mapM (fun j => g.cell i j) with
    | none => .ub
    | some _ => .ok (((List.range g.nVertices).filter
        (fun j => match g.cell i j with | some (some _) => true | _ => false)).map g.invMapping.at')

/-- UndirectedGraph.hpp:167-175: `getDegree`. -/
def G.getDegree (g : G V E) (v : V) : Res Nat :=
  match g.mapping v with
  | none => .throw
  | some i => match g.degrees.get? i with
    | none => .ub
    | some d => .ok d

/-- UndirectedGraph.hpp:184-199: `isAdjacent`. -/
def G.isAdjacent (g : G V E) (u v : V) : Res Bool :=
  match g.mapping u, g.mapping v with
  | some i, some j =>
    if i < j then
      match get2 g.adj i (j - i) with
      | none => .ub
      | some x => .ok x.isSome
    else if j < i then
      match get2 g.adj j (i - j) with
      | none => .ub
      | some x => .ok x.isSome
    else .ok false
  | _, _ => .throw

/-- Client calls. -/
inductive Op (V E : Type) where
  | addVertex (v : V)
  | addEdge (u v : V) (e : E)

def G.step (g : G V E) : Op V E → Out (G V E)
  | .addVertex v => g.addVertex v
  | .addEdge u v e => g.addEdge u v e

/-- Run a history, recording which calls threw. -/
def G.run (g : G V E) (tr : List (Op V E × Bool)) : List (Op V E) → Option (G V E × List (Op V E × Bool))
  | [] => some (g, tr)
  | op :: ops => match g.step op with
    | .ub => none
    | .done g b => g.run (tr ++ [(op, b)]) ops

/-! ### Invariant -/

/-- `g` represents the vertices `Vs`, the unordered edges `S` and the labels `lab`. -/
structure Inv (g : G V E) (Vs : Finset V) (S : Finset (Sym2 V)) (lab : Sym2 V → Option E) : Prop where
  adjSize : g.adj.size = g.nVertices
  rowSize : ∀ i < g.nVertices, (g.adj.at' i).size = g.nVertices - i
  invSize : g.invMapping.size = g.nVertices
  degSize : g.degrees.size = g.nVertices
  mapLt : ∀ v i, g.mapping v = some i → i < g.nVertices ∧ g.invMapping.at' i = v
  mapInv : ∀ i < g.nVertices, g.mapping (g.invMapping.at' i) = some i
  verts : ∀ v, v ∈ Vs ↔ g.mapping v ≠ none
  labS : ∀ p, (p ∈ S ↔ (lab p).isSome = true)
  ends : ∀ u v, s(u, v) ∈ S → u ∈ Vs ∧ v ∈ Vs
  cells : ∀ i j, i ≤ j → j < g.nVertices →
    (g.adj.at' i).at' (j - i) = lab s(g.invMapping.at' i, g.invMapping.at' j)
  degs : ∀ i < g.nVertices, g.degrees.at' i = (S.filter (fun p => g.invMapping.at' i ∈ p)).card
  edges : g.nEdges = S.card
  nVerts : g.nVertices = Vs.card

theorem Inv.inj {g : G V E} {Vs S lab} (h : Inv g Vs S lab) {a b : Nat} (ha : a < g.nVertices)
    (hb : b < g.nVertices) : g.invMapping.at' a = g.invMapping.at' b ↔ a = b := by
  constructor
  · intro e
    have h1 := h.mapInv a ha
    rw [e, h.mapInv b hb] at h1
    exact (Option.some.inj h1).symm
  · rintro rfl; rfl

theorem Inv.empty : Inv (G.empty : G V E) ∅ ∅ (fun _ => none) := by
  constructor <;> simp [G.empty]

theorem Inv.get2 {g : G V E} {Vs S lab} (h : Inv g Vs S lab) {i j : Nat} (hij : i ≤ j)
    (hj : j < g.nVertices) :
    get2 g.adj i (j - i) = some (lab s(g.invMapping.at' i, g.invMapping.at' j)) := by
  have hi : i < g.nVertices := by omega
  have : j - i < g.nVertices - i := by omega
  simp [UG.get2, Vec.get?, h.adjSize, hi, h.rowSize i hi, this, h.cells i j hij hj]

theorem Inv.cell {g : G V E} {Vs S lab} (h : Inv g Vs S lab) {i j : Nat} (hi : i < g.nVertices)
    (hj : j < g.nVertices) :
    g.cell i j = some (lab s(g.invMapping.at' i, g.invMapping.at' j)) := by
  unfold G.cell
  split
  · exact h.get2 (by omega) hj
  · rw [h.get2 (by omega) hi, Sym2.eq_swap]

theorem Inv.insertVertex {g : G V E} {Vs S lab} (h : Inv g Vs S lab) {v : V}
    (hv : g.mapping v = none) : Inv (g.insertVertex v) (insert v Vs) S lab := by
  have hne : ∀ i < g.nVertices, g.invMapping.at' i ≠ v := by
    intro i hi e
    have := h.mapInv i hi
    rw [e, hv] at this; cases this
  have hVs : v ∉ Vs := by rw [h.verts]; simp [hv]
  have hS : ∀ p ∈ S, v ∉ p := by
    intro p hp hvp
    induction p using Sym2.ind with
    | _ a b =>
      rcases Sym2.mem_iff.mp hvp with e | e
      · exact hVs (e ▸ (h.ends a b hp).1)
      · exact hVs (e ▸ (h.ends a b hp).2)
  have hlab : ∀ w, lab s(w, v) = none := by
    intro w
    have := (h.labS s(w, v)).not.mp (fun hm => hS _ hm (by simp))
    simpa using this
  constructor
  · simp [G.insertVertex, Vec.push, Vec.map, h.adjSize]
  · intro i hi
    simp only [G.insertVertex, Vec.push, Vec.map, Vec.fill, h.adjSize] at hi ⊢
    split
    · subst i; simp
    · simp [h.rowSize i (by omega)]; omega
  · simp [G.insertVertex, Vec.push, h.invSize]
  · simp [G.insertVertex, Vec.push, h.degSize]
  · intro w i hw
    simp only [G.insertVertex, Vec.push, h.invSize] at hw ⊢
    split at hw
    · cases hw; subst w; simp
    · obtain ⟨h1, h2⟩ := h.mapLt w i hw
      refine ⟨by omega, ?_⟩
      rw [if_neg (by omega)]; exact h2
  · intro i hi
    simp only [G.insertVertex, Vec.push, h.invSize] at hi ⊢
    by_cases e : i = g.nVertices
    · simp [e]
    · simp only [if_neg e]
      rw [if_neg (hne i (by omega))]
      exact h.mapInv i (by omega)
  · intro w
    simp only [G.insertVertex, Finset.mem_insert, h.verts]
    by_cases e : w = v <;> simp [e]
  · exact h.labS
  · intro a b he
    exact ⟨Finset.mem_insert_of_mem (h.ends a b he).1, Finset.mem_insert_of_mem (h.ends a b he).2⟩
  · intro i j hij hj
    simp only [G.insertVertex, Vec.push, Vec.map, Vec.fill, h.adjSize, h.invSize] at hj ⊢
    by_cases e : j = g.nVertices
    · subst e
      simp only [if_true]
      rw [hlab]
      by_cases e2 : i = g.nVertices
      · simp [e2]
      · simp only [if_neg e2]
        rw [h.rowSize i (by omega)]; simp
    · have hi : i ≠ g.nVertices := by omega
      simp only [if_neg e, if_neg hi]
      rw [h.rowSize i (by omega), if_neg (by omega)]
      exact h.cells i j hij (by omega)
  · intro i hi
    simp only [G.insertVertex, Vec.push, h.degSize, h.invSize] at hi ⊢
    by_cases e : i = g.nVertices
    · simp only [e, if_true]
      rw [Finset.filter_false_of_mem hS]; rfl
    · simp only [if_neg e]; exact h.degs i (by omega)
  · exact h.edges
  · simp [G.insertVertex, Finset.card_insert_of_notMem hVs, h.nVerts]

theorem Inv.ensureVertex {g : G V E} {Vs S lab} (h : Inv g Vs S lab) (v : V) :
    Inv (g.ensureVertex v) (insert v Vs) S lab := by
  unfold G.ensureVertex
  split
  · rename_i i hv
    have : v ∈ Vs := by rw [h.verts]; simp [hv]
    rwa [Finset.insert_eq_of_mem this]
  · rename_i hv; exact h.insertVertex hv

theorem card_filter_insert {S : Finset (Sym2 V)} {a : Sym2 V} (ha : a ∉ S) (p : Sym2 V → Prop)
    [DecidablePred p] :
    ((insert a S).filter p).card = (S.filter p).card + if p a then 1 else 0 := by
  rw [Finset.filter_insert]
  split
  · rw [Finset.card_insert_of_notMem (by simp [ha])]
  · rfl

/-- Update of a label function at one unordered pair. -/
def setLab (lab : Sym2 V → Option E) (p : Sym2 V) (e : E) : Sym2 V → Option E :=
  fun q => if q = p then some e else lab q

/-- The common part of the two branches: write cell of `i ≤ j` (as unordered pair of indices). -/
theorem Inv.writeEdge {g : G V E} {Vs S lab} (h : Inv g Vs S lab) {i j a b : Nat} (e : E)
    (hi : i < g.nVertices) (hj : j < g.nVertices)
    (hab : (i ≤ j ∧ a = i ∧ b = j) ∨ (j ≤ i ∧ a = j ∧ b = i)) :
    ∃ g' t, g.writeEdge i j a (b - a) e = .done g' t ∧
      (t = true ↔ s(g.invMapping.at' i, g.invMapping.at' j) ∈ S) ∧
      (t = true → g' = g) ∧
      (t = false → Inv g' Vs (insert s(g.invMapping.at' i, g.invMapping.at' j) S)
        (setLab lab s(g.invMapping.at' i, g.invMapping.at' j) e)) := by
  have hle : a ≤ b := by omega
  have ha : a < g.nVertices := by omega
  have hb : b < g.nVertices := by omega
  have hp : s(g.invMapping.at' a, g.invMapping.at' b) = s(g.invMapping.at' i, g.invMapping.at' j) := by
    rcases hab with ⟨_, rfl, rfl⟩ | ⟨_, rfl, rfl⟩
    · rfl
    · exact Sym2.eq_swap
  have hg := h.get2 hle hb
  rw [hp] at hg
  cases hl : lab s(g.invMapping.at' i, g.invMapping.at' j) with
  | some x =>
    refine ⟨g, true, by simp [G.writeEdge, hg, hl], ?_, fun _ => rfl, by simp⟩
    simp [h.labS, hl]
  | none =>
    have hnot : s(g.invMapping.at' i, g.invMapping.at' j) ∉ S := by simp [h.labS, hl]
    have hrow : b - a < g.nVertices - a := by omega
    have hs : set2 g.adj a (b - a) (some e) = some ⟨g.adj.size, fun k => if k = a then
        ⟨(g.adj.at' a).size, fun l => if l = b - a then some e else (g.adj.at' a).at' l⟩
        else g.adj.at' k⟩ := by
      simp [set2, Vec.get?, Vec.set?, h.adjSize, ha, h.rowSize a ha, hrow]
    have hd : (incr g.degrees i).bind (fun d => if i ≠ j then incr d j else some d) =
        some ⟨g.degrees.size, fun k => if k = i ∨ k = j then g.degrees.at' k + 1 else g.degrees.at' k⟩ := by
      by_cases hij : i = j
      · subst hij
        simp [incr, Vec.get?, Vec.set?, h.degSize, hi]
        funext k; by_cases e : k = i <;> simp [e]
      · have hji : ¬ j = i := fun e => hij e.symm
        simp [incr, Vec.get?, Vec.set?, h.degSize, hi, hij, hj, hji]
        funext k
        by_cases e1 : k = i
        · subst e1; simp [hij]
        · by_cases e2 : k = j
          · subst e2; simp [e1]
          · simp [e1, e2]
    refine ⟨_, false, by simp only [G.writeEdge, hg, hl, hs, hd]; rfl, by simp [hnot], by simp, ?_⟩
    intro _
    constructor
    · exact h.adjSize
    · intro k hk
      simp only at hk ⊢
      split
      · subst k; exact h.rowSize a ha
      · exact h.rowSize k hk
    · exact h.invSize
    · exact h.degSize
    · exact h.mapLt
    · exact h.mapInv
    · exact h.verts
    · intro p
      simp only [setLab, Finset.mem_insert]
      by_cases e : p = s(g.invMapping.at' i, g.invMapping.at' j)
      · simp [e]
      · simp [e, h.labS]
    · intro u v huv
      rcases Finset.mem_insert.mp huv with e | huv
      · have hi' : g.invMapping.at' i ∈ Vs := by rw [h.verts, h.mapInv i hi]; simp
        have hj' : g.invMapping.at' j ∈ Vs := by rw [h.verts, h.mapInv j hj]; simp
        rcases Sym2.eq_iff.mp e with ⟨rfl, rfl⟩ | ⟨rfl, rfl⟩
        · exact ⟨hi', hj'⟩
        · exact ⟨hj', hi'⟩
      · exact h.ends u v huv
    · intro k l hkl hl'
      simp only [setLab] at hl' ⊢
      rw [← hp]
      have hk : k < g.nVertices := by omega
      by_cases e1 : k = a
      · subst e1
        by_cases e2 : l = b
        · subst e2; simp
        · have : ¬ l - k = b - k := by omega
          simp only [if_true, if_neg this]
          rw [if_neg]
          · exact h.cells k l hkl hl'
          · intro hc
            rcases Sym2.eq_iff.mp hc with ⟨_, hc⟩ | ⟨hc1, hc2⟩
            · exact e2 ((h.inj hl' hb).mp hc)
            · have := (h.inj hk hb).mp hc1
              have := (h.inj hl' hk).mp hc2
              omega
      · simp only [if_neg e1]
        rw [if_neg]
        · exact h.cells k l hkl hl'
        · intro hc
          rcases Sym2.eq_iff.mp hc with ⟨hc, _⟩ | ⟨hc1, hc2⟩
          · exact e1 ((h.inj hk ha).mp hc)
          · have := (h.inj hk hb).mp hc1
            have := (h.inj hl' ha).mp hc2
            omega
    · intro k hk
      simp only at hk ⊢
      rw [card_filter_insert hnot, h.degs k hk]
      have : (g.invMapping.at' k ∈ s(g.invMapping.at' i, g.invMapping.at' j)) ↔ (k = i ∨ k = j) := by
        rw [Sym2.mem_iff, h.inj hk hi, h.inj hk hj]
      simp only [this]
      split <;> rfl
    · simp only [Finset.card_insert_of_notMem hnot, h.edges]
    · exact h.nVerts

theorem Inv.addEdge {g : G V E} {Vs S lab} (h : Inv g Vs S lab) (u v : V) (e : E) :
    ∃ g' t, g.addEdge u v e = .done g' t ∧ (t = true ↔ s(u, v) ∈ S) ∧
      Inv g' (insert v (insert u Vs)) (insert s(u, v) S) (if t then lab else setLab lab s(u, v) e) := by
  have h1 := (h.ensureVertex u).ensureVertex v
  have hu : u ∈ insert v (insert u Vs) := by simp
  have hv : v ∈ insert v (insert u Vs) := by simp
  obtain ⟨i, hi⟩ := Option.ne_none_iff_exists'.mp ((h1.verts u).mp hu)
  obtain ⟨j, hj⟩ := Option.ne_none_iff_exists'.mp ((h1.verts v).mp hv)
  obtain ⟨hi1, hi2⟩ := h1.mapLt u i hi
  obtain ⟨hj1, hj2⟩ := h1.mapLt v j hj
  have key : ∃ g' t, g.addEdge u v e = .done g' t ∧ (t = true ↔ s(u, v) ∈ S) ∧
      (t = true → g' = (g.ensureVertex u).ensureVertex v) ∧
      (t = false → Inv g' (insert v (insert u Vs)) (insert s(u, v) S) (setLab lab s(u, v) e)) := by
    by_cases hij : i < j
    · obtain ⟨g', t, w⟩ := h1.writeEdge e hi1 hj1 (Or.inl ⟨by omega, rfl, rfl⟩)
      rw [hi2, hj2] at w
      exact ⟨g', t, by simp [G.addEdge, hi, hj, hij, w.1], w.2⟩
    · obtain ⟨g', t, w⟩ := h1.writeEdge e hi1 hj1 (Or.inr ⟨by omega, rfl, rfl⟩)
      rw [hi2, hj2] at w
      exact ⟨g', t, by simp [G.addEdge, hi, hj, hij, w.1], w.2⟩
  obtain ⟨g', t, e1, e2, e3, e4⟩ := key
  refine ⟨g', t, e1, e2, ?_⟩
  cases t with
  | true =>
    rw [e3 rfl, Finset.insert_eq_of_mem (e2.mp rfl)]; simpa using h1
  | false => simpa using e4 rfl

end MQT.UG
