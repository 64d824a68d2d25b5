/-
The iterators over the vertices and edges of a diagram, the adjacency matrix and the neighbours of a set of vertices.
-/
import Verif.ZX.Disconnected
import Verif.ZX.Simplify

set_option autoImplicit false

noncomputable section

open Classical

open Function (update)

namespace MQT.ZX

open Diagram

namespace Diagram

/-! ### Model: vertices -/

/-- `nextValidVertex` (Utils.cpp 56-61), and the same loop for edges (Utils.cpp 69-71, 117-119).  The position in the list of
vertices is the number of the vertex. -/
def nextValid (D : Diagram) (v : ℕ) : ℕ := if v < D.size ∧ D.vert v = none then nextValid D (v + 1) else v
termination_by D.size - v

/-- The loop `for (it = begin(); it != end(); ++it)` over the vertices (Utils.cpp 31-37, 47-54, Utils.hpp 73-76, 106-107), at most `k`
rounds.  Undefined if a vertex is read that does not exist. -/
def collectV (D : Diagram) : ℕ → ℕ → Option (List ℕ)
  | 0, _ => none
  | k + 1, v => if v = D.size then some [] else
    match D.vert v with
    | none => none
    | some _ => (collectV D k (D.nextValid (v + 1))).map (v :: ·)

/-! ### Model: edges -/

/-- `EdgeIterator` (Utils.hpp 157-160): the vertex, the position in a list of edges (the list and the index) and the list. -/
structure EIt where
  v : ℕ
  cur : ℕ × ℕ
  ep : ℕ

/-- `while (currentPos != edges[v].end() && currentPos->to < v) ++currentPos` (Utils.cpp 110-113, 129-132). -/
def skip (l : List Edge) (v j : ℕ) : ℕ := if h : j < l.length then if (l[j]).tgt < v then skip l v (j + 1) else j else j
termination_by l.length - j

/-- `edges.back().end()`. -/
def endPos (D : Diagram) : ℕ × ℕ := (D.size - 1, (D.adj (D.size - 1)).length)

theorem le_nextValid (D : Diagram) (v : ℕ) : v ≤ D.nextValid v := by
  induction v using nextValid.induct D with
  | case1 v h ih =>
    rw [nextValid, if_pos h]
    omega
  | case2 v h => rw [nextValid, if_neg h]

/-- The second loop of `checkNextVertex` (Utils.cpp 115-133). -/
def moveOn (D : Diagram) (it : EIt) : EIt :=
  if it.cur = (it.v, (D.adj it.v).length) ∧ it.v < D.size then
    if D.nextValid (it.v + 1) = D.size then ⟨D.size - 1, D.endPos, D.size⟩
    else moveOn D ⟨D.nextValid (it.v + 1),
      (D.nextValid (it.v + 1), skip (D.adj (D.nextValid (it.v + 1))) (D.nextValid (it.v + 1)) 0), D.nextValid (it.v + 1)⟩
  else it
termination_by D.size - it.v
decreasing_by
  have := D.le_nextValid (it.v + 1)
  omega

/-- `checkNextVertex` (Utils.cpp 109-134). -/
def checkNext (D : Diagram) (it : EIt) : EIt := D.moveOn { it with cur := (it.cur.1, skip (D.adj it.v) it.v it.cur.2) }

/-- `begin` (Utils.hpp 171, Utils.cpp 63-85).  The first list of edges is read. -/
def edgeBegin (D : Diagram) : Option EIt :=
  if D.size = 0 then none
  else if D.nextValid 0 < D.size then some (D.checkNext ⟨D.nextValid 0, (D.nextValid 0, 0), D.nextValid 0⟩)
  else some ⟨D.nextValid 0, D.endPos, D.size⟩

/-- `*it` (Utils.hpp 146). -/
def deref (D : Diagram) (it : EIt) : Option (ℕ × ℕ) := (D.adj it.cur.1)[it.cur.2]?.map fun e => (it.v, e.tgt)

/-- `++it` (Utils.cpp 102-107). -/
def next (D : Diagram) (it : EIt) : EIt := D.checkNext { it with cur := (it.cur.1, it.cur.2 + 1) }

/-- The loop `for (it = …; it != end(); ++it)` (Utils.cpp 87-99, 142-147), at most `k` rounds. -/
def collectE (D : Diagram) : ℕ → EIt → Option (List (ℕ × ℕ))
  | 0, _ => none
  | k + 1, it =>
    if it.ep = D.size ∧ it.cur = D.endPos then some []
    else (D.deref it).bind fun p => (collectE D k (D.next it)).map (p :: ·)

/-! ### Model: adjacency matrix and neighbours -/

/-- `getAdjMat` (ZXDiagram.cpp 391-401).  Undefined for indices beyond the number of vertices. -/
def adjMat (D : Diagram) : Option (ℕ → ℕ → Bool) :=
  D.getEdges.bind fun l =>
    (l.foldlM (fun (m : ℕ → ℕ → Bool) p =>
      if p.1 < D.nvertices.toNat ∧ p.2 < D.nvertices.toNat then
        some (update (update m p.1 (update (m p.1) p.2 true)) p.2 (update (update m p.1 (update (m p.1) p.2 true) p.2) p.1 true))
      else none) fun _ _ => false).map fun m i j => if i = j ∧ i < D.nvertices.toNat then true else m i j

/-- `lower_bound` and the insertion (ZXDiagram.cpp 414-421), for a sorted list. -/
def insertTo (l : List ℕ) (w : ℕ) : List ℕ :=
  match l.dropWhile fun a => decide (a < w) with
  | [] => l ++ [w]
  | b :: r => if b ≠ w then l.takeWhile (fun a => decide (a < w)) ++ w :: b :: r else l

/-- `getConnectedSet` (ZXDiagram.cpp 403-425). -/
def connectedSet (D : Diagram) (s exclude : List ℕ) : Option (List ℕ) :=
  s.foldlM (fun acc v => if v < D.size then
    some ((D.adj v).foldl (fun acc e => if e.tgt ∈ exclude then acc else insertTo acc e.tgt) acc) else none) []

/-! ### Vertices -/

/-- The vertices from `v` on. -/
def from_ (D : Diagram) (v : ℕ) : List ℕ := (List.range' v (D.size - v)).filter fun v => D.Alive v

theorem from_cons {D : Diagram} {v : ℕ} (h : v < D.size) (ha : D.Alive v) : D.from_ v = v :: D.from_ (v + 1) := by
  unfold from_
  rw [show D.size - v = (D.size - (v + 1)) + 1 by omega, List.range'_succ, List.filter_cons_of_pos (by simpa using ha)]

theorem from_skip {D : Diagram} {v : ℕ} (h : v < D.size) (ha : ¬ D.Alive v) : D.from_ v = D.from_ (v + 1) := by
  unfold from_
  rw [show D.size - v = (D.size - (v + 1)) + 1 by omega, List.range'_succ, List.filter_cons_of_neg (by simpa using ha)]

theorem from_end (D : Diagram) : D.from_ D.size = [] := by
  unfold from_
  simp

theorem from_zero (D : Diagram) : D.from_ 0 = D.getVertices := by
  unfold from_ getVertices
  rw [List.range_eq_range', Nat.sub_zero]

theorem nextValid_spec (D : Diagram) (v : ℕ) (hv : v ≤ D.size) :
    D.nextValid v ≤ D.size ∧ (D.nextValid v < D.size → D.Alive (D.nextValid v)) ∧ D.from_ v = D.from_ (D.nextValid v) := by
  induction v using nextValid.induct D with
  | case1 v h ih =>
    rw [nextValid, if_pos h]
    obtain ⟨a, b, c⟩ := ih (by omega)
    refine ⟨a, b, ?_⟩
    rw [← c, from_skip h.1]
    rintro ⟨d, hd⟩
    rw [h.2] at hd
    exact absurd hd (by simp)
  | case2 v h =>
    rw [nextValid, if_neg h]
    exact ⟨hv, fun h1 => Option.ne_none_iff_exists'.1 fun hc => h ⟨h1, hc⟩, rfl⟩

theorem collectV_spec (D : Diagram) : ∀ (n v : ℕ), v ≤ D.size → (v < D.size → D.Alive v) → (D.from_ v).length < n →
    D.collectV n v = some (D.from_ v)
  | 0, _, _, _, h => by omega
  | n + 1, v, hv, ha, h => by
    unfold collectV
    by_cases he : v = D.size
    · rw [if_pos he, he, from_end]
    · rw [if_neg he]
      have hlt : v < D.size := by omega
      obtain ⟨d, hd⟩ := ha hlt
      rw [from_cons hlt ⟨d, hd⟩] at h ⊢
      obtain ⟨a, b, c⟩ := D.nextValid_spec (v + 1) (by omega)
      rw [c] at h ⊢
      rw [hd]
      simp only
      rw [collectV_spec D n _ a b (by simp at h; omega)]
      rfl

/-! ### Edges -/

/-- The edges of a vertex to later ones, from the index `j` on. -/
def outFrom (D : Diagram) (v j : ℕ) : List (ℕ × ℕ) := (((D.adj v).drop j).filter fun e => ¬ e.tgt < v).map fun e => (v, e.tgt)

/-- The edges that are still to come. -/
def rest (D : Diagram) (v j : ℕ) : List (ℕ × ℕ) := D.outFrom v j ++ (D.from_ (v + 1)).flatMap fun w => D.outFrom w 0

theorem skip_spec (l : List Edge) (v j : ℕ) (hj : j ≤ l.length) : skip l v j ≤ l.length ∧
    (∀ e, l[skip l v j]? = some e → ¬ e.tgt < v) ∧
      (l.drop j).filter (fun e => ¬ e.tgt < v) = (l.drop (skip l v j)).filter fun e => ¬ e.tgt < v := by
  induction j using skip.induct l v with
  | case1 j h h1 ih =>
    rw [skip, dif_pos h, if_pos h1]
    obtain ⟨a, b, c⟩ := ih (by omega)
    refine ⟨a, b, ?_⟩
    rw [← c, List.drop_eq_getElem_cons h, List.filter_cons_of_neg (by simpa using h1)]
  | case2 j h h1 =>
    rw [skip, dif_pos h, if_neg h1]
    refine ⟨hj, fun e he => ?_, rfl⟩
    rw [List.getElem?_eq_getElem h] at he
    cases he
    exact h1
  | case3 j h =>
    rw [skip, dif_neg h]
    refine ⟨hj, fun e he => ?_, rfl⟩
    rw [List.getElem?_eq_none (by omega)] at he
    exact absurd he (by simp)

theorem outFrom_end {D : Diagram} {v j : ℕ} (h : (D.adj v).length ≤ j) : D.outFrom v j = [] := by
  unfold outFrom
  rw [List.drop_eq_nil_of_le h]
  rfl

theorem outFrom_cons {D : Diagram} {v j : ℕ} {e : Edge} (he : (D.adj v)[j]? = some e) (hv : ¬ e.tgt < v) :
    D.outFrom v j = (v, e.tgt) :: D.outFrom v (j + 1) := by
  obtain ⟨h, he⟩ := List.getElem?_eq_some_iff.1 he
  unfold outFrom
  rw [List.drop_eq_getElem_cons h, he, List.filter_cons_of_pos (by simpa using hv)]
  rfl

/-- The iterator is at the end and nothing is to come, or at an edge, which comes first. -/
def AtNext (D : Diagram) (r : List (ℕ × ℕ)) (it : EIt) : Prop :=
  (it.ep = D.size ∧ it.cur = D.endPos ∧ r = []) ∨
    ∃ e, it.v < D.size ∧ it.ep = it.v ∧ it.cur.1 = it.v ∧ D.Alive it.v ∧ (D.adj it.v)[it.cur.2]? = some e ∧
      r = (it.v, e.tgt) :: D.rest it.v (it.cur.2 + 1)

theorem moveOn_spec (D : Diagram) : ∀ (n v j : ℕ), D.size - v ≤ n → v < D.size → D.Alive v → j ≤ (D.adj v).length →
    (∀ e, (D.adj v)[j]? = some e → ¬ e.tgt < v) → D.AtNext (D.rest v j) (D.moveOn ⟨v, (v, j), v⟩)
  | 0, v, j, hn, hv, _, _, _ => by omega
  | n + 1, v, j, hn, hv, ha, hj, he => by
    rw [moveOn]
    by_cases hl : j = (D.adj v).length
    · rw [if_pos ⟨by rw [hl], hv⟩]
      simp only
      obtain ⟨a, b, c⟩ := D.nextValid_spec (v + 1) (by omega)
      have hr : D.rest v j = (D.from_ (D.nextValid (v + 1))).flatMap fun w => D.outFrom w 0 := by
        unfold rest
        rw [outFrom_end hl.ge, List.nil_append, c]
      by_cases hs : D.nextValid (v + 1) = D.size
      · rw [if_pos hs]
        left
        refine ⟨rfl, rfl, ?_⟩
        rw [hr, hs, from_end]
        rfl
      · rw [if_neg hs]
        have hlt : D.nextValid (v + 1) < D.size := by omega
        have hle := D.le_nextValid (v + 1)
        generalize D.nextValid (v + 1) = w at *
        obtain ⟨s1, s2, s3⟩ := skip_spec (D.adj w) w 0 (Nat.zero_le _)
        have := moveOn_spec D n w (skip (D.adj w) w 0) (by omega) hlt (b hlt) s1 s2
        rw [hr, from_cons hlt (b hlt), List.flatMap_cons]
        have e2 : D.rest w (skip (D.adj w) w 0) = D.outFrom w 0 ++ (D.from_ (w + 1)).flatMap fun w => D.outFrom w 0 := by
          unfold rest outFrom
          rw [s3]
        rw [← e2]
        exact this
    · rw [if_neg fun hc => hl (by simpa using hc.1)]
      right
      have hjl : j < (D.adj v).length := by omega
      have hg : (D.adj v)[j]? = some (D.adj v)[j] := List.getElem?_eq_getElem hjl
      refine ⟨(D.adj v)[j], hv, rfl, rfl, ha, hg, ?_⟩
      unfold rest
      rw [outFrom_cons hg (he _ hg)]
      rfl

theorem checkNext_spec (D : Diagram) {v j : ℕ} (hv : v < D.size) (ha : D.Alive v) (hj : j ≤ (D.adj v).length) :
    D.AtNext (D.rest v j) (D.checkNext ⟨v, (v, j), v⟩) := by
  obtain ⟨s1, s2, s3⟩ := skip_spec (D.adj v) v j hj
  have := moveOn_spec D _ v (skip (D.adj v) v j) le_rfl hv ha s1 s2
  have e : D.rest v j = D.rest v (skip (D.adj v) v j) := by
    unfold rest outFrom
    rw [s3]
  rw [e]
  exact this

theorem collectE_spec (D : Diagram) : ∀ (n : ℕ) (it : EIt) (r : List (ℕ × ℕ)), D.AtNext r it → r.length < n → D.collectE n it = some r
  | 0, _, _, _, h => by omega
  | n + 1, it, r, h, hn => by
    unfold collectE
    rcases h with ⟨h1, h2, rfl⟩ | ⟨e, hv, hep, hc, ha, he, rfl⟩
    · rw [if_pos ⟨h1, h2⟩]
    · rw [if_neg fun hx => by omega]
      unfold deref
      rw [hc, he]
      simp only [Option.map_some, Option.bind_some]
      have hit : (⟨it.v, (it.cur.1, it.cur.2 + 1), it.ep⟩ : EIt) = ⟨it.v, (it.v, it.cur.2 + 1), it.v⟩ := by rw [hc, hep]
      have hnx : D.AtNext (D.rest it.v (it.cur.2 + 1)) (D.next it) := by
        unfold next
        rw [hit]
        exact checkNext_spec D hv ha (by
          obtain ⟨h, -⟩ := List.getElem?_eq_some_iff.1 he
          omega)
      rw [collectE_spec D n _ _ hnx (by simp at hn; omega)]
      rfl

theorem rest_zero {D : Diagram} {l : List (ℕ × ℕ)} (h : D.getEdges = some l) : l = (D.from_ 0).flatMap fun w => D.outFrom w 0 := by
  unfold getEdges at h
  split at h
  · cases h
  · rw [← Option.some.inj h, from_zero]
    rfl

theorem edges_spec {D : Diagram} {l : List (ℕ × ℕ)} (h : D.getEdges = some l) :
    ∃ it, D.edgeBegin = some it ∧ ∀ n, l.length < n → D.collectE n it = some l := by
  have h0 : D.size ≠ 0 := by
    intro hc
    unfold getEdges at h
    rw [if_pos hc] at h
    cases h
  have hl := rest_zero h
  obtain ⟨a, b, c⟩ := D.nextValid_spec 0 (Nat.zero_le _)
  unfold edgeBegin
  rw [if_neg h0]
  by_cases hlt : D.nextValid 0 < D.size
  · rw [if_pos hlt]
    refine ⟨_, rfl, fun n hn => collectE_spec D n _ _ ?_ hn⟩
    have := checkNext_spec D hlt (b hlt) (Nat.zero_le _)
    rw [c, from_cons hlt (b hlt), List.flatMap_cons] at hl
    rw [hl]
    exact this
  · rw [if_neg hlt]
    refine ⟨_, rfl, fun n hn => collectE_spec D n _ _ (.inl ⟨rfl, rfl, ?_⟩) hn⟩
    rw [hl, c, show D.nextValid 0 = D.size by omega, from_end]
    rfl

/-- Which pairs are listed. -/
theorem mem_getEdges {D : Diagram} {l : List (ℕ × ℕ)} (h : D.getEdges = some l) (a b : ℕ) :
    (a, b) ∈ l ↔ a < D.size ∧ D.Alive a ∧ D.Link a b ∧ a ≤ b := by
  unfold getEdges at h
  split at h
  · cases h
  · rw [← Option.some.inj h]
    unfold getVertices Link
    simp only [List.mem_flatMap, List.mem_filter, List.mem_range, List.mem_map, Prod.mk.injEq, decide_eq_true_eq, not_lt]
    constructor
    · rintro ⟨v, ⟨h1, h2⟩, e, ⟨he, hle⟩, rfl, rfl⟩
      exact ⟨h1, h2, ⟨e, he, rfl⟩, hle⟩
    · rintro ⟨h1, h2, ⟨e, he, rfl⟩, hle⟩
      exact ⟨a, ⟨h1, h2⟩, e, ⟨he, hle⟩, rfl, rfl⟩

/-! ### Adjacency matrix -/

/-- The step of the loop. -/
def setBoth (m : ℕ → ℕ → Bool) (p : ℕ × ℕ) : ℕ → ℕ → Bool :=
  update (update m p.1 (update (m p.1) p.2 true)) p.2 (update (update m p.1 (update (m p.1) p.2 true) p.2) p.1 true)

theorem setBoth_apply (m : ℕ → ℕ → Bool) (p : ℕ × ℕ) (i j : ℕ) :
    setBoth m p i j = (m i j || decide ((i = p.1 ∧ j = p.2) ∨ (i = p.2 ∧ j = p.1))) := by
  obtain ⟨a, b⟩ := p
  unfold setBoth
  simp only [Function.update_apply]
  by_cases h1 : i = a <;> by_cases h2 : i = b <;> by_cases h3 : j = a <;> by_cases h4 : j = b <;> simp_all

theorem adjLoop (n : ℕ) : ∀ (l : List (ℕ × ℕ)) (m : ℕ → ℕ → Bool), (∀ p ∈ l, p.1 < n ∧ p.2 < n) →
    ∃ m', l.foldlM (fun (m : ℕ → ℕ → Bool) p => if p.1 < n ∧ p.2 < n then some (setBoth m p) else none) m = some m' ∧
      ∀ i j, m' i j = true ↔ m i j = true ∨ (i, j) ∈ l ∨ (j, i) ∈ l
  | [], m, _ => ⟨m, rfl, by simp⟩
  | p :: l, m, h => by
    obtain ⟨m', h1, h2⟩ := adjLoop n l (setBoth m p) fun q hq => h q (List.mem_cons_of_mem _ hq)
    refine ⟨m', ?_, fun i j => ?_⟩
    · rw [List.foldlM_cons, if_pos (h p List.mem_cons_self)]
      exact h1
    · rw [h2, setBoth_apply, Bool.or_eq_true, decide_eq_true_eq, List.mem_cons, List.mem_cons]
      obtain ⟨a, b⟩ := p
      simp only [Prod.mk.injEq]
      tauto

theorem adjMat_spec {D : Diagram} (h : D.Inv) (h0 : D.size ≠ 0) (hd : D.deleted = []) :
    ∃ m, D.adjMat = some m ∧ ∀ i j, i < D.size → j < D.size → (m i j = true ↔ i = j ∨ D.Link i j) := by
  have ha : ∀ v, v < D.size → D.Alive v := by
    intro v hv
    by_contra hc
    have : v ∈ D.deleted := (h.del v).2 ⟨hv, by
      by_contra hn
      exact hc (Option.ne_none_iff_exists'.1 hn)⟩
    rw [hd] at this
    exact absurd this (by simp)
  have hcard : D.nvertices.toNat = D.size := by
    rw [h.nv, Int.toNat_natCast]
    unfold verts
    rw [Finset.filter_true_of_mem fun v hv => ha v (Finset.mem_range.1 hv), Finset.card_range]
  obtain ⟨l, hl⟩ : ∃ l, D.getEdges = some l := by
    unfold getEdges
    rw [if_neg h0]
    exact ⟨_, rfl⟩
  have hm := mem_getEdges hl
  obtain ⟨m, h1, h2⟩ := adjLoop D.nvertices.toNat l (fun _ _ => false) (by
    rintro ⟨a, b⟩ hab
    obtain ⟨a1, a2, a3, -⟩ := (hm a b).1 hab
    rw [hcard]
    exact ⟨a1, h.lt (h.link_symm a2 a3).1⟩)
  refine ⟨fun i j => if i = j ∧ i < D.nvertices.toNat then true else m i j, ?_, ?_⟩
  · unfold adjMat
    rw [hl, Option.bind_some]
    have : l.foldlM (fun (m : ℕ → ℕ → Bool) p =>
      if p.1 < D.nvertices.toNat ∧ p.2 < D.nvertices.toNat then
        some (update (update m p.1 (update (m p.1) p.2 true)) p.2 (update (update m p.1 (update (m p.1) p.2 true) p.2) p.1 true))
      else none) (fun _ _ => false) = some m := h1
    rw [this]
    rfl
  · intro i j hi hj
    beta_reduce
    by_cases hij : i = j
    · rw [if_pos ⟨hij, by rw [hcard]; exact hi⟩]
      simp [hij]
    · rw [if_neg fun hc => hij hc.1, h2, hm, hm]
      constructor
      · rintro (hf | ⟨-, -, hl, -⟩ | ⟨-, a, hl, -⟩)
        · exact absurd hf (by simp)
        · exact .inr hl
        · exact .inr (h.link_symm a hl).2
      · rintro (hc | hl)
        · exact absurd hc hij
        · right
          rcases Nat.le_total i j with hle | hle
          · exact .inl ⟨hi, ha i hi, hl, hle⟩
          · exact .inr ⟨hj, ha j hj, (h.link_symm (ha i hi) hl).2, hle⟩

/-! ### Neighbours -/

theorem insertTo_spec {l : List ℕ} (h : l.Pairwise (· < ·)) (w : ℕ) :
    (insertTo l w).Pairwise (· < ·) ∧ ∀ a, a ∈ insertTo l w ↔ a ∈ l ∨ a = w := by
  have hsplit := List.takeWhile_append_dropWhile (p := fun a => decide (a < w)) (l := l)
  have ht : ∀ a ∈ l.takeWhile fun a => decide (a < w), a < w := fun a ha => by simpa using List.mem_takeWhile_imp ha
  unfold insertTo
  split
  next hd =>
    rw [hd, List.append_nil] at hsplit
    rw [hsplit] at ht
    refine ⟨?_, by simp⟩
    rw [List.pairwise_append]
    refine ⟨h, List.pairwise_singleton _ _, fun a ha b hb => ?_⟩
    rw [List.mem_singleton.1 hb]
    exact ht a ha
  next b r hd =>
    have hb : ¬ b < w := by
      have := List.head_dropWhile_not (fun a => decide (a < w)) (by rw [hd]; simp : l.dropWhile (fun a => decide (a < w)) ≠ [])
      simpa [hd] using this
    rw [hd] at hsplit
    split
    next hne =>
      rw [← hsplit] at h
      obtain ⟨p1, p2, p3⟩ := List.pairwise_append.1 h
      obtain ⟨q1, q2⟩ := List.pairwise_cons.1 p2
      constructor
      · rw [List.pairwise_append]
        refine ⟨p1, ?_, ?_⟩
        · rw [List.pairwise_cons]
          refine ⟨fun a ha => ?_, p2⟩
          rcases List.mem_cons.1 ha with rfl | ha
          · omega
          · have := q1 a ha
            omega
        · intro a ha c hc
          rcases List.mem_cons.1 hc with rfl | hc
          · exact ht a ha
          · exact p3 a ha c hc
      · intro a
        conv_rhs => rw [← hsplit]
        simp only [List.mem_append, List.mem_cons]
        tauto
    next hne =>
      have hbw : b = w := by
        by_contra hc
        exact hne hc
      refine ⟨h, fun a => ⟨.inl, ?_⟩⟩
      rintro (ha | rfl)
      · exact ha
      · rw [← hsplit, hbw]
        simp

theorem connectedSet_spec (D : Diagram) (exclude : List ℕ) : ∀ (s acc : List ℕ), (∀ v ∈ s, v < D.size) → acc.Pairwise (· < ·) →
    ∃ r, s.foldlM (fun acc v => if v < D.size then
      some ((D.adj v).foldl (fun acc e => if e.tgt ∈ exclude then acc else insertTo acc e.tgt) acc) else none) acc = some r ∧
      r.Pairwise (· < ·) ∧ ∀ w, w ∈ r ↔ w ∈ acc ∨ (w ∉ exclude ∧ ∃ v ∈ s, D.Link v w)
  | [], acc, _, ha => ⟨acc, rfl, ha, by simp⟩
  | v :: s, acc, hs, ha => by
    have inner : ∀ (l : List Edge) (acc : List ℕ), acc.Pairwise (· < ·) →
        (l.foldl (fun acc e => if e.tgt ∈ exclude then acc else insertTo acc e.tgt) acc).Pairwise (· < ·) ∧
        ∀ w, w ∈ l.foldl (fun acc e => if e.tgt ∈ exclude then acc else insertTo acc e.tgt) acc ↔
          w ∈ acc ∨ (w ∉ exclude ∧ ∃ e ∈ l, e.tgt = w) := by
      intro l
      induction l with
      | nil => exact fun acc ha => ⟨ha, by simp⟩
      | cons e l ih =>
        intro acc ha
        rw [List.foldl_cons]
        by_cases he : e.tgt ∈ exclude
        · rw [if_pos he]
          refine ⟨(ih acc ha).1, fun w => ((ih acc ha).2 w).trans ?_⟩
          constructor
          · rintro (h | ⟨h1, c, hc, h2⟩)
            · exact .inl h
            · exact .inr ⟨h1, c, List.mem_cons_of_mem _ hc, h2⟩
          · rintro (h | ⟨h1, c, hc, h2⟩)
            · exact .inl h
            · rcases List.mem_cons.1 hc with rfl | hc
              · exact absurd he (h2 ▸ h1)
              · exact .inr ⟨h1, c, hc, h2⟩
        · rw [if_neg he]
          obtain ⟨i1, i2⟩ := insertTo_spec ha e.tgt
          refine ⟨(ih _ i1).1, fun w => ((ih _ i1).2 w).trans ?_⟩
          rw [i2]
          constructor
          · rintro ((h | rfl) | ⟨h1, c, hc, h2⟩)
            · exact .inl h
            · exact .inr ⟨he, e, List.mem_cons_self, rfl⟩
            · exact .inr ⟨h1, c, List.mem_cons_of_mem _ hc, h2⟩
          · rintro (h | ⟨h1, c, hc, h2⟩)
            · exact .inl (.inl h)
            · rcases List.mem_cons.1 hc with rfl | hc
              · exact .inl (.inr h2.symm)
              · exact .inr ⟨h1, c, hc, h2⟩
    obtain ⟨i1, i2⟩ := inner (D.adj v) acc ha
    obtain ⟨r, r1, r2, r3⟩ := connectedSet_spec D exclude s _ (fun u hu => hs u (List.mem_cons_of_mem _ hu)) i1
    refine ⟨r, ?_, r2, fun w => (r3 w).trans ?_⟩
    · rw [List.foldlM_cons, if_pos (hs v List.mem_cons_self)]
      exact r1
    · rw [i2]
      constructor
      · rintro ((h | ⟨h1, h2⟩) | ⟨h1, u, hu, h2⟩)
        · exact .inl h
        · exact .inr ⟨h1, v, List.mem_cons_self, h2⟩
        · exact .inr ⟨h1, u, List.mem_cons_of_mem _ hu, h2⟩
      · rintro (h | ⟨h1, u, hu, h2⟩)
        · exact .inl (.inl h)
        · rcases List.mem_cons.1 hu with rfl | hu
          · exact .inl (.inr ⟨h1, h2⟩)
          · exact .inr ⟨h1, u, hu, h2⟩

end Diagram

end MQT.ZX
