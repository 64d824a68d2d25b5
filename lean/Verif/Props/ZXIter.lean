/-
Property C114: the iterators over vertices and edges, the adjacency matrix (`getAdjMat`) and the neighbours of a set
(`getConnectedSet`).
-/
import Verif.ZX.Concrete
import Verif.ZX.Iter

set_option autoImplicit false

noncomputable section

open Classical

open Function (update)

namespace MQT.ZX

open Diagram

/-- **C114.** The loop over the vertices ends and visits the existing vertices in increasing order. -/
theorem c114_vertices (D : Diagram) {n : ℕ} (hn : D.size < n) : ∃ l, D.collectV n (D.nextValid 0) = some l ∧ l.Pairwise (· < ·) ∧
    ∀ v, v ∈ l ↔ v < D.size ∧ D.Alive v := by
  obtain ⟨a, b, c⟩ := D.nextValid_spec 0 (Nat.zero_le _)
  refine ⟨D.from_ (D.nextValid 0), collectV_spec D n _ a b ?_, ?_, ?_⟩
  · unfold from_
    refine lt_of_le_of_lt (List.length_filter_le _ _) ?_
    rw [List.length_range']
    omega
  · exact List.Pairwise.filter _ (List.pairwise_lt_range' ..)
  · intro v
    rw [← c, from_zero]
    unfold getVertices
    simp

/-- **C114.** The loop over the edges ends and visits every edge once, from the vertex with the smaller index: as often as there are
edges between two vertices.
Missing from C114: a diagram without vertices (`c114_empty`). -/
theorem c114_edges_partial {D : Diagram} (h : D.Inv) (h0 : D.size ≠ 0) : ∃ it l, D.edgeBegin = some it ∧
    (∀ n, l.length < n → D.collectE n it = some l) ∧
      ∀ a b, l.count (a, b) = if a < b ∧ D.Alive a then D.conn a b else 0 := by
  obtain ⟨l, hl⟩ : ∃ l, D.getEdges = some l := by
    unfold getEdges
    rw [if_neg h0]
    exact ⟨_, rfl⟩
  obtain ⟨it, h1, h2⟩ := edges_spec hl
  refine ⟨it, l, h1, h2, fun a b => ?_⟩
  by_cases hab : a < b ∧ D.Alive a
  · rw [if_pos hab]
    have hm : a ∈ D.getVertices := List.mem_filter.2 ⟨List.mem_range.2 (h.lt hab.2), by simpa using hab.2⟩
    have hnd : D.getVertices.Nodup := List.Nodup.filter _ List.nodup_range
    rw [rest_zero hl, from_zero, List.count_flatMap]
    obtain ⟨s, t, hst, hns⟩ := List.append_of_mem hm |>.imp fun s hs => hs.imp fun t ht => (⟨ht, by
      rw [ht] at hnd
      have := (List.nodup_append.1 hnd)
      exact ⟨fun hc => this.2.2 a hc a List.mem_cons_self rfl, (List.nodup_cons.1 this.2.1).1⟩⟩ : _ ∧ (a ∉ s ∧ a ∉ t))
    have zero : ∀ w, w ≠ a → List.count (a, b) (D.outFrom w 0) = 0 := by
      intro w hw
      rw [List.count_eq_zero]
      unfold outFrom
      rw [List.mem_map]
      rintro ⟨e, -, he⟩
      exact hw (Prod.mk.inj he).1
    have zl : ∀ r : List ℕ, a ∉ r → (r.map (List.count (a, b) ∘ fun w => D.outFrom w 0)).sum = 0 := by
      intro r hr
      apply List.sum_eq_zero
      intro x hx
      obtain ⟨w, hw, rfl⟩ := List.mem_map.1 hx
      exact zero w fun e => hr (e ▸ hw)
    rw [hst, List.map_append, List.map_cons, List.sum_append, List.sum_cons, zl s hns.1, zl t hns.2, zero_add, add_zero]
    show List.count (a, b) (D.outFrom a 0) = _
    unfold outFrom conn
    rw [List.drop_zero, List.count, List.countP_map, List.countP_filter]
    apply List.countP_congr
    intro e _
    simp
    omega
  · rw [if_neg hab, List.count_eq_zero]
    intro hc
    obtain ⟨a1, a2, ⟨e, he, rfl⟩, a4⟩ := (mem_getEdges hl a b).1 hc
    have := (h.nb a a2 e he).2
    exact hab ⟨by omega, a2⟩

/-- **C114 fails.** For a diagram without vertices the first list of edges is read, which does not exist. -/
theorem c114_empty : Diagram.empty.Inv ∧ Diagram.empty.edgeBegin = none := by
  refine ⟨⟨fun _ _ => rfl, by simp [Diagram.empty], by simp [Diagram.empty], ?_, ?_, ?_, ?_⟩, if_pos rfl⟩
  · have : Diagram.empty.verts = ∅ := Finset.filter_eq_empty_iff.2 fun v hv => absurd (Finset.mem_range.1 hv) (Nat.not_lt_zero _)
    rw [this]
    rfl
  · have : Diagram.empty.verts = ∅ := Finset.filter_eq_empty_iff.2 fun v hv => absurd (Finset.mem_range.1 hv) (Nat.not_lt_zero _)
    rw [this]
    rfl
  · rintro u v t ⟨d, hd⟩
    cases hd
  · rintro u ⟨d, hd⟩
    cases hd

/-- **C114.** The adjacency matrix of a diagram from which no vertex was deleted.
Missing from C114: diagrams with deleted vertices (`c114_deleted`). -/
theorem c114_adj_partial {D : Diagram} (h : D.Inv) (h0 : D.size ≠ 0) (hd : D.deleted = []) :
    ∃ m, D.adjMat = some m ∧ ∀ i j, i < D.size → j < D.size → (m i j = true ↔ i = j ∨ D.Link i j) :=
  adjMat_spec h h0 hd

/-- **C114.** The neighbours of a set of vertices: increasing, without the excluded vertices. -/
theorem c114_connected (D : Diagram) {s : List ℕ} (exclude : List ℕ) (hs : ∀ v ∈ s, v < D.size) :
    ∃ r, D.connectedSet s exclude = some r ∧ r.Pairwise (· < ·) ∧ ∀ w, w ∈ r ↔ w ∉ exclude ∧ ∃ v ∈ s, D.Link v w := by
  obtain ⟨r, h1, h2, h3⟩ := connectedSet_spec D exclude s [] hs List.Pairwise.nil
  exact ⟨r, h1, h2, fun w => (h3 w).trans (by simp)⟩

/-! ### Examples -/

theorem adjLoop_bound (n : ℕ) (f : (ℕ → ℕ → Bool) → ℕ × ℕ → ℕ → ℕ → Bool) : ∀ (l : List (ℕ × ℕ)) (m m' : ℕ → ℕ → Bool),
    l.foldlM (fun (m : ℕ → ℕ → Bool) p => if p.1 < n ∧ p.2 < n then some (f m p) else none) m = some m' →
      ∀ p ∈ l, p.1 < n ∧ p.2 < n
  | [], _, _, _ => by simp
  | q :: l, m, m', h => by
    rw [List.foldlM_cons] at h
    by_cases hq : q.1 < n ∧ q.2 < n
    · rw [if_pos hq] at h
      intro p hp
      rcases List.mem_cons.1 hp with rfl | hp
      · exact hq
      · exact adjLoop_bound n f l _ m' h p hp
    · rw [if_neg hq] at h
      cases h

/-- A path of three spiders, beginning with the second one. -/
def path3 : Diagram := ofLists [.z, .z, .z] (fun _ => Phase.zero) [[⟨1, .simple⟩], [⟨0, .simple⟩, ⟨2, .hadamard⟩], [⟨1, .hadamard⟩]] [] []

theorem path3_inv : path3.Inv := ofLists_inv (by decide)

example : ∃ it, path3.edgeBegin = some it ∧ path3.collectE 3 it = some [(0, 1), (1, 2)] := by
  have h : path3.getEdges = some [(0, 1), (1, 2)] := by
    have ha : ∀ v, v < 3 → path3.Alive v := fun v hv => ofLists_alive.2 hv
    have : path3.getVertices = [0, 1, 2] := List.filter_eq_self.2 fun v hv => by simpa using ha v (List.mem_range.1 hv)
    unfold getEdges
    rw [if_neg (by decide), this]
    rfl
  obtain ⟨it, h1, h2⟩ := edges_spec h
  exact ⟨it, h1, h2 3 (by decide)⟩

example : ∃ r, path3.connectedSet [0, 2, 1] [2] = some r ∧ r = [0, 1] := ⟨_, rfl, by
  simp [insertTo, path3, ofLists]⟩

example : ∃ m, path3.adjMat = some m ∧ m 0 1 = true ∧ m 2 1 = true ∧ m 1 1 = true ∧ m 0 2 = false := by
  obtain ⟨m, h1, h2⟩ := c114_adj_partial path3_inv (by decide) rfl
  refine ⟨m, h1, (h2 0 1 (by decide) (by decide)).2 (.inr ⟨_, List.mem_singleton.2 rfl, rfl⟩),
    (h2 2 1 (by decide) (by decide)).2 (.inr ⟨_, List.mem_singleton.2 rfl, rfl⟩),
    (h2 1 1 (by decide) (by decide)).2 (.inl rfl), ?_⟩
  rw [← Bool.not_eq_true, h2 0 2 (by decide) (by decide)]
  rintro (hc | ⟨e, he, hc⟩)
  · omega
  · have : e ∈ [(⟨1, .simple⟩ : Edge)] := he
    rw [List.mem_singleton.1 this] at hc
    exact absurd hc (by decide)

/-- **C114 fails.** After the first of three vertices was deleted, the adjacency matrix has two rows, and the third is written. -/
theorem c114_deleted : (path3.without 0).Inv ∧ (path3.without 0).adjMat = none := by
  have a0 : path3.Alive 0 := ofLists_alive.2 (by decide)
  have inv := without_inv path3_inv a0
  refine ⟨inv, ?_⟩
  have hs : (path3.without 0).size ≠ 0 := by decide
  obtain ⟨l, hl⟩ : ∃ l, (path3.without 0).getEdges = some l := by
    unfold getEdges
    rw [if_neg hs]
    exact ⟨_, rfl⟩
  have a1 : (path3.without 0).Alive 1 := (without_alive ..).2 ⟨ofLists_alive.2 (by decide), by decide⟩
  have hm : (1, 2) ∈ l := by
    refine (mem_getEdges hl 1 2).2 ⟨by decide, a1, ⟨⟨2, .hadamard⟩, ?_, rfl⟩, by decide⟩
    show _ ∈ if path3.Alive 1 ∧ 1 ≠ 0 then (path3.adj 1).filter fun e => e.tgt ≠ 0 else path3.adj 1
    rw [if_pos ⟨ofLists_alive.2 (by decide), by decide⟩, List.mem_filter]
    exact ⟨by decide, by decide⟩
  unfold adjMat
  rw [hl, Option.bind_some, Option.map_eq_none_iff]
  by_contra hc
  obtain ⟨m, hm'⟩ := Option.ne_none_iff_exists'.1 hc
  have := (adjLoop_bound _ _ l _ _ hm' (1, 2) hm).2
  exact absurd this (by decide)

end MQT.ZX
