import Verif.DataStructures.UndirectedGraph

set_option autoImplicit false

/-! C05: undirected graph is symmetric and counts its edges. -/

namespace MQT.UG

set_option linter.unusedSectionVars false

variable {V E : Type} [DecidableEq V] [Inhabited V]

/-- Specification: vertices mentioned by a history. -/
def verticesOf : List (Op V E) → Finset V
  | [] => ∅
  | .addVertex v :: h => insert v (verticesOf h)
  | .addEdge u v _ :: h => insert u (insert v (verticesOf h))

/-- Specification: unordered pairs connected by a history. -/
def pairsOf : List (Op V E) → Finset (Sym2 V)
  | [] => ∅
  | .addVertex _ :: h => pairsOf h
  | .addEdge u v _ :: h => insert s(u, v) (pairsOf h)

/-- Specification: the attribute given by the first `addEdge` for an unordered pair. -/
def firstLabel : List (Op V E) → Sym2 V → Option E
  | [], _ => none
  | .addVertex _ :: h, p => firstLabel h p
  | .addEdge u v e :: h, p => if p = s(u, v) then some e else firstLabel h p

theorem verticesOf_append (a b : List (Op V E)) : verticesOf (a ++ b) = verticesOf a ∪ verticesOf b := by
  induction a with
  | nil => simp [verticesOf]
  | cons x a ih => cases x <;> simp [verticesOf, ih, Finset.insert_union]

theorem pairsOf_append (a b : List (Op V E)) : pairsOf (a ++ b) = pairsOf a ∪ pairsOf b := by
  induction a with
  | nil => simp [pairsOf]
  | cons x a ih => cases x <;> simp [pairsOf, ih, Finset.insert_union]

theorem firstLabel_append (a b : List (Op V E)) (p : Sym2 V) :
    firstLabel (a ++ b) p = (firstLabel a p).or (firstLabel b p) := by
  induction a with
  | nil => simp [firstLabel]
  | cons x a ih =>
    cases x with
    | addVertex v => simpa [firstLabel] using ih
    | addEdge u v e => simp only [List.cons_append, firstLabel]; split <;> simp [ih]

theorem firstLabel_isSome (h : List (Op V E)) (p : Sym2 V) :
    p ∈ pairsOf h ↔ (firstLabel h p).isSome = true := by
  induction h with
  | nil => simp [pairsOf, firstLabel]
  | cons x a ih =>
    cases x with
    | addVertex v => simpa [pairsOf, firstLabel] using ih
    | addEdge u v e =>
      simp only [pairsOf, firstLabel, Finset.mem_insert, ih]
      by_cases e : p = s(u, v) <;> simp [e]

/-- `addVertex`/`addEdge` throw exactly on repeated vertices/pairs. -/
def ThrowsOnRepeat (tr : List (Op V E × Bool)) : Prop :=
  (∀ pre u v e post b, tr = pre ++ (Op.addEdge u v e, b) :: post →
    (b = true ↔ s(u, v) ∈ pairsOf (pre.map (·.1)))) ∧
  (∀ pre v post b, tr = pre ++ (Op.addVertex v, b) :: post →
    (b = true ↔ v ∈ verticesOf (pre.map (·.1))))

theorem snoc_split {α : Type} {tr pre post : List α} {x y : α} (e : tr ++ [x] = pre ++ y :: post) :
    (tr = pre ∧ x = y ∧ post = []) ∨ ∃ post', tr = pre ++ y :: post' ∧ post = post' ++ [x] := by
  rcases List.eq_nil_or_concat post with hr | ⟨post', z, hr⟩
  · subst hr
    obtain ⟨e1, e2⟩ := List.append_inj' e rfl
    exact Or.inl ⟨e1, by simpa using e2, rfl⟩
  · subst hr
    have e' : tr ++ [x] = (pre ++ y :: post') ++ [z] := by simpa using e
    obtain ⟨e1, e2⟩ := List.append_inj' e' rfl
    have : x = z := by simpa using e2
    subst this
    exact Or.inr ⟨post', e1, by simp⟩

structure RunInv (g : G V E) (tr : List (Op V E × Bool)) : Prop where
  inv : Inv g (verticesOf (tr.map (·.1))) (pairsOf (tr.map (·.1))) (firstLabel (tr.map (·.1)))
  throws : ThrowsOnRepeat tr

theorem step_inv {g : G V E} {tr : List (Op V E × Bool)} (h : RunInv g tr) (op : Op V E) :
    ∃ g' b, g.step op = .done g' b ∧ RunInv g' (tr ++ [(op, b)]) := by
  cases op with
  | addVertex v =>
    have key : ∃ g' b, g.addVertex v = .done g' b ∧ (b = true ↔ v ∈ verticesOf (tr.map (·.1))) ∧
        Inv g' (insert v (verticesOf (tr.map (·.1)))) (pairsOf (tr.map (·.1))) (firstLabel (tr.map (·.1))) := by
      unfold G.addVertex
      split
      · rename_i hv
        exact ⟨_, _, rfl, by simp [h.inv.verts, hv], h.inv.insertVertex hv⟩
      · rename_i i hv
        have : v ∈ verticesOf (tr.map (·.1)) := by rw [h.inv.verts]; simp [hv]
        exact ⟨g, true, rfl, by simp [this], by rw [Finset.insert_eq_of_mem this]; exact h.inv⟩
    obtain ⟨g', b, e, t, i⟩ := key
    refine ⟨g', b, e, ⟨?_, ?_, ?_⟩⟩
    · have e1 : verticesOf ((tr ++ [((Op.addVertex v : Op V E), b)]).map (·.1)) =
          insert v (verticesOf (tr.map (·.1))) := by simp [verticesOf_append, verticesOf]
      have e2 : pairsOf ((tr ++ [((Op.addVertex v : Op V E), b)]).map (·.1)) = pairsOf (tr.map (·.1)) := by
        simp [pairsOf_append, pairsOf]
      have e3 : firstLabel ((tr ++ [((Op.addVertex v : Op V E), b)]).map (·.1)) = firstLabel (tr.map (·.1)) := by
        funext p; simp [firstLabel_append, firstLabel]
      rw [e1, e2, e3]; exact i
    · intro pre u w e' post b' he
      rcases snoc_split he with ⟨_, e2, _⟩ | ⟨post', e2, _⟩
      · cases e2
      · exact h.throws.1 pre u w e' post' b' e2
    · intro pre w post b' he
      rcases snoc_split he with ⟨e1, e2, _⟩ | ⟨post', e2, _⟩
      · cases e2; subst e1; exact t
      · exact h.throws.2 pre w post' b' e2
  | addEdge u v e =>
    obtain ⟨g', t, e1, e2, i⟩ := h.inv.addEdge u v e
    refine ⟨g', t, e1, ⟨?_, ?_, ?_⟩⟩
    · have q1 : verticesOf ((tr ++ [(Op.addEdge u v e, t)]).map (·.1)) =
          insert v (insert u (verticesOf (tr.map (·.1)))) := by
        simp [verticesOf_append, verticesOf, Finset.insert_comm]
      have q2 : pairsOf ((tr ++ [(Op.addEdge u v e, t)]).map (·.1)) =
          insert s(u, v) (pairsOf (tr.map (·.1))) := by
        simp [pairsOf_append, pairsOf]
      have q3 : firstLabel ((tr ++ [(Op.addEdge u v e, t)]).map (·.1)) =
          (if t then firstLabel (tr.map (·.1)) else setLab (firstLabel (tr.map (·.1))) s(u, v) e) := by
        funext p
        rw [List.map_append, firstLabel_append]
        have hp := firstLabel_isSome (tr.map (·.1)) s(u, v)
        simp only [List.map_cons, List.map_nil, firstLabel]
        cases t with
        | true =>
          by_cases ep : p = s(u, v)
          · subst ep
            have := hp.mp (e2.mp rfl)
            obtain ⟨x, hx⟩ := Option.isSome_iff_exists.mp this
            simp [hx]
          · simp [ep]
        | false =>
          by_cases ep : p = s(u, v)
          · subst ep
            have hn : firstLabel (tr.map (·.1)) s(u, v) = none := by
              cases hx : firstLabel (tr.map (·.1)) s(u, v) with
              | none => rfl
              | some x => have := e2.mpr (hp.mpr (by simp [hx])); cases this
            simp [setLab, hn]
          · simp [setLab, ep]
      rw [q1, q2, q3]; exact i
    · intro pre u' w e' post b' he
      rcases snoc_split he with ⟨h1, h2, _⟩ | ⟨post', h2, _⟩
      · cases h2; subst h1; exact e2
      · exact h.throws.1 pre u' w e' post' b' h2
    · intro pre w post b' he
      rcases snoc_split he with ⟨_, h2, _⟩ | ⟨post', h2, _⟩
      · cases h2
      · exact h.throws.2 pre w post' b' h2

theorem run_inv (h : List (Op V E)) : ∀ (g : G V E) (tr : List (Op V E × Bool)), RunInv g tr →
    ∃ g' tr', g.run tr h = some (g', tr') ∧ tr'.map (·.1) = tr.map (·.1) ++ h ∧ RunInv g' tr' := by
  induction h with
  | nil => intro d tr hi; exact ⟨d, tr, rfl, by simp, hi⟩
  | cons op h ih =>
    intro d tr hi
    obtain ⟨d1, b, e1, i1⟩ := step_inv hi op
    obtain ⟨d2, tr2, e2, m2, i2⟩ := ih d1 _ i1
    exact ⟨d2, tr2, by simp [G.run, e1, e2], by simp [m2], i2⟩

/-- What the queries must answer after history `h`. -/
structure Answers (g : G V E) (h : List (Op V E)) : Prop where
  nVertices : g.getNVertices = (verticesOf h).card
  nEdges : g.getNEdges = (pairsOf h).card
  getEdge : ∀ u v, g.getEdge u v = (match firstLabel h s(u, v) with | some e => .ok e | none => .throw)
  getDegree : ∀ v, g.getDegree v =
    if v ∈ verticesOf h then .ok ((pairsOf h).filter (fun p => v ∈ p)).card else .throw
  neighbours : ∀ v, v ∈ verticesOf h → ∃ l, g.getNeighbours v = .ok l ∧ l.Nodup ∧
    ∀ w, w ∈ l ↔ s(v, w) ∈ pairsOf h
  isAdjacent : ∀ u v, g.isAdjacent u v =
    if u ∈ verticesOf h ∧ v ∈ verticesOf h then .ok (decide (s(u, v) ∈ pairsOf h ∧ u ≠ v)) else .throw

theorem mapM_some {α β : Type} (f : α → Option β) (l : List α) (hl : ∀ a ∈ l, f a ≠ none) :
    l.mapM f ≠ none := by
  induction l with
  | nil => simp
  | cons a l ih =>
    obtain ⟨b, hb⟩ := Option.ne_none_iff_exists'.mp (hl a (by simp))
    obtain ⟨c, hc⟩ := Option.ne_none_iff_exists'.mp (ih (fun k hk => hl k (by simp [hk])))
    simp [List.mapM_cons, hb, hc]

theorem Inv.answers {g : G V E} {h : List (Op V E)}
    (i : Inv g (verticesOf h) (pairsOf h) (firstLabel h)) : Answers g h := by
  constructor
  · exact i.nVerts
  · exact i.edges
  · intro u v
    unfold G.getEdge
    cases hu : g.mapping u with
    | none =>
      have : s(u, v) ∉ pairsOf h := fun hm => (i.verts u).mp (i.ends u v hm).1 hu
      rw [i.labS] at this
      simp at this; simp [this]
    | some a =>
      cases hv : g.mapping v with
      | none =>
        have : s(u, v) ∉ pairsOf h := fun hm => (i.verts v).mp (i.ends u v hm).2 hv
        rw [i.labS] at this
        simp at this; simp [this]
      | some b =>
        obtain ⟨a1, a2⟩ := i.mapLt u a hu
        obtain ⟨b1, b2⟩ := i.mapLt v b hv
        simp only [i.cell a1 b1, a2, b2]
        cases firstLabel h s(u, v) <;> rfl
  · intro v
    unfold G.getDegree
    have hv := i.verts v
    cases hmv : g.mapping v with
    | none => simp [hmv] at hv; simp [hv]
    | some j =>
      simp [hmv] at hv
      obtain ⟨hj1, hj2⟩ := i.mapLt v j hmv
      have := i.degs j hj1
      rw [hj2] at this
      simp [Vec.get?, i.degSize, hj1, hv, this]
  · intro v hv
    obtain ⟨a, ha⟩ := Option.ne_none_iff_exists'.mp ((i.verts v).mp hv)
    obtain ⟨a1, a2⟩ := i.mapLt v a ha
    have hm : (List.range g.nVertices).mapM (fun j => g.cell a j) ≠ none := by
      apply mapM_some
      intro j hj
      simp only [List.mem_range] at hj
      simp [i.cell a1 hj]
    obtain ⟨x, hx⟩ := Option.ne_none_iff_exists'.mp hm
    refine ⟨_, by simp only [G.getNeighbours, ha, hx]; rfl, ?_, ?_⟩
    · apply List.Nodup.map_on
      · intro x hx y hy e
        simp only [List.mem_filter, List.mem_range] at hx hy
        exact (i.inj hx.1 hy.1).mp e
      · exact List.Nodup.filter _ List.nodup_range
    · intro w
      simp only [List.mem_map, List.mem_filter, List.mem_range]
      constructor
      · rintro ⟨j, ⟨hj, hc⟩, rfl⟩
        rw [i.cell a1 hj, a2] at hc
        rw [i.labS]
        cases hl : firstLabel h s(v, g.invMapping.at' j) with
        | none => rw [hl] at hc; simp at hc
        | some x => rfl
      · intro hp
        obtain ⟨j, hj⟩ := Option.ne_none_iff_exists'.mp ((i.verts w).mp (i.ends v w hp).2)
        obtain ⟨j1, j2⟩ := i.mapLt w j hj
        refine ⟨j, ⟨j1, ?_⟩, j2⟩
        rw [i.cell a1 j1, a2, j2]
        rw [i.labS] at hp
        obtain ⟨y, hy⟩ := Option.isSome_iff_exists.mp hp
        simp [hy]
  · intro u v
    unfold G.isAdjacent
    have hu' := i.verts u
    have hv' := i.verts v
    cases hu : g.mapping u with
    | none => simp [hu] at hu'; simp [hu']
    | some a =>
      cases hv : g.mapping v with
      | none => simp [hv] at hv'; simp [hv']
      | some b =>
        simp [hu] at hu'; simp [hv] at hv'
        obtain ⟨a1, a2⟩ := i.mapLt u a hu
        obtain ⟨b1, b2⟩ := i.mapLt v b hv
        have hne : u ≠ v ↔ a ≠ b := by rw [← a2, ← b2, Ne, i.inj a1 b1]
        have hS := i.labS s(u, v)
        simp only [hu', hv', and_self, if_true]
        by_cases h1 : a < b
        · have : u ≠ v := hne.mpr (by omega)
          simp only [h1, if_true, i.get2 (by omega : a ≤ b) b1, a2, b2]
          simp [hS, this]
        · by_cases h2 : b < a
          · have : u ≠ v := hne.mpr (by omega)
            simp only [h1, h2, if_true, if_false, i.get2 (by omega : b ≤ a) a1, a2, b2]
            rw [Sym2.eq_swap]
            simp [hS, this]
          · have : u = v := by
              by_contra hc; have := hne.mp hc; omega
            simp [h1, h2, this]

/-- **C05.** For every history: no undefined behaviour; repeated vertices and repeated unordered
pairs are rejected (and only these); `getEdge(u,v) = getEdge(v,u)` is the attribute of the first
accepted `addEdge` for the unordered pair; `getNEdges` counts distinct unordered pairs; `getDegree`
counts incident edges (a self-loop once); `getNeighbours` lists exactly the neighbours;
`isAdjacent` is symmetric and exact for distinct vertices. -/
theorem c05_undirectedGraph (h : List (Op V E)) :
    ∃ g tr, (G.empty : G V E).run [] h = some (g, tr) ∧ tr.map (·.1) = h ∧ ThrowsOnRepeat tr ∧
      Answers g h ∧ (∀ u v, g.getEdge u v = g.getEdge v u) ∧ (∀ u v, g.isAdjacent u v = g.isAdjacent v u) := by
  have i0 : RunInv (G.empty : G V E) [] := by
    refine ⟨Inv.empty, ?_, ?_⟩
    · intro pre u v e post b he; simp at he
    · intro pre v post b he; simp at he
  obtain ⟨g, tr, e, m, i⟩ := run_inv h G.empty [] i0
  have m : tr.map (·.1) = h := by simpa using m
  have a : Answers g h := by have := i.inv; rw [m] at this; exact this.answers
  refine ⟨g, tr, e, m, i.throws, a, ?_, ?_⟩
  · intro u v; rw [a.getEdge, a.getEdge, Sym2.eq_swap]
  · intro u v
    rw [a.isAdjacent, a.isAdjacent, Sym2.eq_swap]
    simp only [and_comm, ne_comm]

/-- Concrete case: repeated pair in the other orientation is rejected and keeps the first label. -/
example :
    ((G.empty : G Nat Char).run [] [.addEdge 5 3 'a', .addEdge 3 5 'b', .addEdge 3 4 'c', .addEdge 4 4 'd']).map
      (fun (g, tr) => (tr.map (·.2), g.getNEdges, g.getEdge 3 5, g.getDegree 4)) =
    some ([false, true, false, false], 3, .ok 'a', .ok 2) := by decide

/-- `isAdjacent(v,v)` is false although the self-loop was added and `getNeighbours` lists it
(UndirectedGraph.hpp:197-198 versus 158-161). -/
theorem c05_selfLoop_not_adjacent :
    ((G.empty : G Nat Char).run [] [.addEdge 4 4 'd']).map
      (fun (g, _) => (g.isAdjacent 4 4, g.getNeighbours 4, g.getEdge 4 4)) =
    some (.ok false, .ok [4], .ok 'd') := by decide

end MQT.UG
