/-
Removal of the vertices that are not connected to an input or an output (`removeDisconnectedSpiders`).
-/
import Mathlib.Logic.Relation
import Verif.ZX.ConcatMain

set_option autoImplicit false

noncomputable section

open Classical

open Function (update)

namespace MQT.ZX

open Diagram

namespace Diagram

/-! ### Model -/

/-- The neighbours, in the order in which they are taken from the stack (ZXDiagram.cpp 372-374). -/
def nbrs (D : Diagram) (w : ℕ) : List ℕ := ((D.adj w).map Edge.tgt).reverse

/-- The depth-first search of `connectedToBoundary` (ZXDiagram.cpp 353-377) with the visited vertices and the stack (the top comes
first).  Undefined for an access beyond the end of the edges. -/
def search (D : Diagram) (vis : Finset ℕ) : List ℕ → Option Bool
  | [] => some false
  | w :: st =>
    if w ∈ vis then search D vis st
    else if w ∈ D.inputs ∨ w ∈ D.outputs then some true
    else if w < D.size then search D (insert w vis) (D.nbrs w ++ st)
    else none
termination_by st => ((Finset.range D.size \ vis).card, st.length)
decreasing_by
  · right
    simp
  · left
    apply Finset.card_lt_card
    rw [Finset.ssubset_iff_of_subset (Finset.sdiff_subset_sdiff le_rfl (Finset.subset_insert _ _))]
    refine ⟨w, Finset.mem_sdiff.2 ⟨Finset.mem_range.2 (by assumption), by assumption⟩, ?_⟩
    simp

/-- The loop over the vertices (ZXDiagram.cpp 379-384). -/
def removeLoop : List ℕ → Diagram → Option Diagram
  | [], D => some D
  | v :: l, D =>
    if D.vert v = none then removeLoop l D
    else match D.search ∅ [v] with
      | none => none
      | some true => removeLoop l D
      | some false => (D.removeVertex v).bind (removeLoop l)

/-- `removeDisconnectedSpiders` (ZXDiagram.cpp 352-385). -/
def removeDisconnected (D : Diagram) : Option Diagram := removeLoop (List.range D.size) D

/-! ### Specification -/

/-- There is an edge. -/
def Link (D : Diagram) (a b : ℕ) : Prop := ∃ e ∈ D.adj a, e.tgt = b

/-- There is a path to an input or an output. -/
def Linked (D : Diagram) (v : ℕ) : Prop := ∃ w, Relation.ReflTransGen D.Link v w ∧ w ∈ D.inputs ++ D.outputs

/-- The vertices without such a path. -/
def loose (D : Diagram) : Finset ℕ := D.verts.filter fun v => ¬ D.Linked v

/-- The number that is denoted by them. -/
def looseVal (ρ : ℕ → ℝ) (D : Diagram) : ℂ := sumOver D.loose ((graph D).W ρ D.loose) fun _ => false

/-! ### The search -/

theorem Linked.of_link {D : Diagram} {a b : ℕ} (h : D.Link a b) (hb : D.Linked b) : D.Linked a := by
  obtain ⟨w, hw, hm⟩ := hb
  exact ⟨w, .head h hw, hm⟩

theorem Inv.link_symm {D : Diagram} (h : D.Inv) {a b : ℕ} (ha : D.Alive a) (hl : D.Link a b) : D.Alive b ∧ D.Link b a := by
  obtain ⟨⟨b', t⟩, he, rfl⟩ := hl
  obtain ⟨hb, -⟩ := h.nb a ha _ he
  refine ⟨hb, ⟨a, t⟩, ?_, rfl⟩
  have : (D.adj a).count ⟨b', t⟩ = (D.adj b').count ⟨a, t⟩ := h.sym a b' t ha hb
  exact List.count_pos_iff.1 (this ▸ List.count_pos_iff.2 he)

theorem Linked.escape {D : Diagram} {vis : Finset ℕ} {st : List ℕ} (hp : ∀ a ∈ vis, a ∉ D.inputs ++ D.outputs)
    (hc : ∀ a ∈ vis, ∀ b, D.Link a b → b ∈ vis ∨ b ∈ st) {a : ℕ} (ha : a ∈ vis) (hl : D.Linked a) : ∃ b ∈ st, D.Linked b := by
  obtain ⟨w, hw, hm⟩ := hl
  induction hw using Relation.ReflTransGen.head_induction_on with
  | refl => exact absurd hm (hp _ ha)
  | head h1 h2 ih =>
    rcases hc _ ha _ h1 with h | h
    · exact ih h
    · exact ⟨_, h, w, h2, hm⟩

theorem search_spec {D : Diagram} (h : D.Inv) (vis : Finset ℕ) (st : List ℕ) (hs : ∀ a ∈ st, D.Alive a)
    (hp : ∀ a ∈ vis, a ∉ D.inputs ++ D.outputs) (hc : ∀ a ∈ vis, ∀ b, D.Link a b → b ∈ vis ∨ b ∈ st) :
    D.search vis st = some (decide (∃ a ∈ st, D.Linked a)) := by
  induction vis, st using search.induct D with
  | case1 vis =>
    rw [search]
    simp
  | case2 vis w st hw ih =>
    rw [search, if_pos hw, ih (fun a ha => hs a (List.mem_cons_of_mem _ ha)) hp fun a ha b hb => ?_]
    · congr 1
      apply decide_eq_decide.2
      constructor
      · rintro ⟨a, ha, hl⟩
        exact ⟨a, List.mem_cons_of_mem _ ha, hl⟩
      · rintro ⟨a, ha, hl⟩
        rcases List.mem_cons.1 ha with rfl | ha
        · refine Linked.escape hp (fun a ha b hb => ?_) hw hl
          rcases hc a ha b hb with h | h
          · exact .inl h
          · rcases List.mem_cons.1 h with rfl | h
            · exact .inl hw
            · exact .inr h
        · exact ⟨a, ha, hl⟩
    · rcases hc a ha b hb with h | h
      · exact .inl h
      · rcases List.mem_cons.1 h with rfl | h
        · exact .inl hw
        · exact .inr h
  | case3 vis w st hw hio =>
    rw [search, if_neg hw, if_pos hio]
    congr 1
    exact (decide_eq_true ⟨w, List.mem_cons_self, w, .refl, List.mem_append.2 hio⟩).symm
  | case4 vis w st hw hio hlt ih =>
    have aw := hs w List.mem_cons_self
    have hadj : ∀ b, b ∈ D.nbrs w ↔ D.Link w b := by
      intro b
      unfold nbrs
      rw [List.mem_reverse, List.mem_map]
      rfl
    rw [search, if_neg hw, if_neg hio, if_pos hlt, ih ?_ ?_ ?_]
    · congr 1
      apply decide_eq_decide.2
      constructor
      · rintro ⟨a, ha, hl⟩
        rcases List.mem_append.1 ha with ha | ha
        · exact ⟨w, List.mem_cons_self, hl.of_link ((hadj a).1 ha)⟩
        · exact ⟨a, List.mem_cons_of_mem _ ha, hl⟩
      · rintro ⟨a, ha, hl⟩
        rcases List.mem_cons.1 ha with rfl | ha
        · obtain ⟨z, hz, hm⟩ := hl
          rcases Relation.ReflTransGen.cases_head hz with rfl | ⟨b, h1, h2⟩
          · exact absurd (List.mem_append.1 hm) hio
          · exact ⟨b, List.mem_append_left _ ((hadj b).2 h1), z, h2, hm⟩
        · exact ⟨a, List.mem_append_right _ ha, hl⟩
    · intro a ha
      rcases List.mem_append.1 ha with ha | ha
      · exact (h.link_symm aw ((hadj a).1 ha)).1
      · exact hs a (List.mem_cons_of_mem _ ha)
    · intro a ha
      rcases Finset.mem_insert.1 ha with rfl | ha
      · exact fun hm => hio (List.mem_append.1 hm)
      · exact hp a ha
    · intro a ha b hb
      rcases Finset.mem_insert.1 ha with rfl | ha
      · exact .inr (List.mem_append_left _ ((hadj b).2 hb))
      · rcases hc a ha b hb with h | h
        · exact .inl (Finset.mem_insert_of_mem h)
        · rcases List.mem_cons.1 h with rfl | h
          · exact .inl (Finset.mem_insert_self _ _)
          · exact .inr (List.mem_append_right _ h)
  | case5 vis w st hw hio hlt => exact absurd (h.lt (hs w List.mem_cons_self)) hlt

/-- The search finds out whether there is a path to an input or an output. -/
theorem search_iff {D : Diagram} (h : D.Inv) {v : ℕ} (hv : D.Alive v) : D.search ∅ [v] = some (decide (D.Linked v)) := by
  rw [search_spec h ∅ [v] (by simpa using hv) (by simp) (by simp)]
  simp

/-! ### The removal -/

/-- Some loose vertices have been removed. -/
structure Pruned (D D' : Diagram) (S : Finset ℕ) : Prop where
  inv : D'.Inv
  size : D'.size = D.size
  inputs : D'.inputs = D.inputs
  outputs : D'.outputs = D.outputs
  gp : D'.globalPhase = D.globalPhase
  gone : ∀ v ∈ S, ¬ D.Linked v
  vert : ∀ v, D'.vert v = if v ∈ S then none else D.vert v
  adj : ∀ v, D.Alive v → D.Linked v → D'.adj v = D.adj v
  sub : ∀ v w, D'.Alive v → D'.Link v w → D.Link v w

theorem Pruned.refl {D : Diagram} (h : D.Inv) : Pruned D D ∅ where
  inv := h
  size := rfl
  inputs := rfl
  outputs := rfl
  gp := rfl
  gone := by simp
  vert := by simp
  adj := fun _ _ _ => rfl
  sub := fun _ _ _ h => h

theorem Pruned.alive {D D' : Diagram} {S : Finset ℕ} (p : Pruned D D' S) (v : ℕ) : D'.Alive v ↔ D.Alive v ∧ v ∉ S := by
  unfold Alive
  rw [p.vert]
  by_cases hv : v ∈ S
  · simp [hv]
  · simp [hv]

theorem Pruned.linked {D D' : Diagram} {S : Finset ℕ} (h : D.Inv) (p : Pruned D D' S) {v : ℕ} (hv : D'.Alive v) : D'.Linked v ↔ D.Linked v := by
  constructor
  · rintro ⟨w, hw, hm⟩
    rw [p.inputs, p.outputs] at hm
    induction hw using Relation.ReflTransGen.head_induction_on with
    | refl => exact ⟨w, .refl, hm⟩
    | head h1 _ ih => exact (ih (p.inv.link_symm hv h1).1).of_link (p.sub _ _ hv h1)
  · rintro ⟨w, hw, hm⟩
    have ha := ((p.alive v).1 hv).1
    clear hv
    refine ⟨w, ?_, by rw [p.inputs, p.outputs]; exact hm⟩
    induction hw using Relation.ReflTransGen.head_induction_on with
    | refl => exact .refl
    | @head a b h1 h2 ih =>
      refine .head ?_ (ih (h.link_symm ha h1).1)
      unfold Link
      rw [p.adj a ha ⟨w, .head h1 h2, hm⟩]
      exact h1

theorem Pruned.step {D D' : Diagram} {S : Finset ℕ} (h : D.Inv) (p : Pruned D D' S) {v : ℕ} (hv : D'.Alive v) (hl : ¬ D.Linked v) :
    Pruned D (D'.without v) (insert v S) where
  inv := without_inv p.inv hv
  size := p.size
  inputs := p.inputs
  outputs := p.outputs
  gp := p.gp
  gone := by
    intro w hw
    rcases Finset.mem_insert.1 hw with rfl | hw
    · exact hl
    · exact p.gone w hw
  vert := by
    intro w
    show update D'.vert v none w = _
    by_cases hw : w = v
    · subst hw
      rw [Function.update_self, if_pos (Finset.mem_insert_self _ _)]
    · rw [Function.update_of_ne hw, p.vert]
      simp [hw]
  adj := by
    intro w hw hlw
    have hne : w ≠ v := by
      rintro rfl
      exact hl hlw
    have hw' : D'.Alive w := (p.alive w).2 ⟨hw, fun hs => p.gone w hs hlw⟩
    show (if D'.Alive w ∧ w ≠ v then (D'.adj w).filter fun e => e.tgt ≠ v else D'.adj w) = _
    rw [if_pos ⟨hw', hne⟩, p.adj w hw hlw, List.filter_eq_self]
    intro e he
    apply decide_eq_true
    rintro rfl
    exact hl (hlw.of_link (h.link_symm hw ⟨e, he, rfl⟩).2)
  sub := by
    rintro a b ha ⟨e, he, rfl⟩
    rw [without_alive] at ha
    have he' : e ∈ (if D'.Alive a ∧ a ≠ v then (D'.adj a).filter fun e => e.tgt ≠ v else D'.adj a) := he
    rw [if_pos ha, List.mem_filter] at he'
    exact p.sub _ _ ha.1 ⟨e, he'.1, rfl⟩

theorem removeLoop_spec {D : Diagram} (h : D.Inv) : ∀ (l : List ℕ) (D1 : Diagram) (S : Finset ℕ), Pruned D D1 S →
    ∃ D', removeLoop l D1 = some D' ∧ Pruned D D' (S ∪ l.toFinset.filter fun v => D.Alive v ∧ ¬ D.Linked v)
  | [], D1, S, p => ⟨D1, rfl, by simpa using p⟩
  | v :: l, D1, S, p => by
    unfold removeLoop
    by_cases hv : D1.vert v = none
    · rw [if_pos hv]
      obtain ⟨D', h1, h2⟩ := removeLoop_spec h l D1 S p
      refine ⟨D', h1, ?_⟩
      have : S ∪ (v :: l).toFinset.filter (fun v => D.Alive v ∧ ¬ D.Linked v) = S ∪ l.toFinset.filter fun v => D.Alive v ∧ ¬ D.Linked v := by
        ext w
        simp only [Finset.mem_union, Finset.mem_filter, List.mem_toFinset, List.mem_cons]
        constructor
        · rintro (hw | ⟨rfl | hw, ha, hl⟩)
          · exact .inl hw
          · left
            by_contra hS
            obtain ⟨d, hd⟩ := (p.alive w).2 ⟨ha, hS⟩
            rw [hv] at hd
            exact absurd hd (by simp)
          · exact .inr ⟨hw, ha, hl⟩
        · rintro (hw | ⟨hw, r⟩)
          · exact .inl hw
          · exact .inr ⟨.inr hw, r⟩
      rw [this]
      exact h2
    · rw [if_neg hv]
      have hv1 : D1.Alive v := Option.ne_none_iff_exists'.1 hv
      have hvD := ((p.alive v).1 hv1).1
      rw [search_iff p.inv hv1, decide_eq_decide.2 (p.linked h hv1)]
      by_cases hl : D.Linked v
      · rw [decide_eq_true hl]
        obtain ⟨D', h1, h2⟩ := removeLoop_spec h l D1 S p
        refine ⟨D', h1, ?_⟩
        have : (v :: l).toFinset.filter (fun v => D.Alive v ∧ ¬ D.Linked v) = l.toFinset.filter fun v => D.Alive v ∧ ¬ D.Linked v := by
          rw [List.toFinset_cons, Finset.filter_insert, if_neg fun hc => hc.2 hl]
        rw [this]
        exact h2
      · rw [decide_eq_false hl]
        obtain ⟨D', h1, h2⟩ := removeLoop_spec h l _ _ (p.step h hv1 hl)
        refine ⟨D', ?_, ?_⟩
        · simp only
          rw [removeVertex_eq p.inv hv1, Option.bind_some, h1]
        · have : S ∪ (v :: l).toFinset.filter (fun v => D.Alive v ∧ ¬ D.Linked v) =
              insert v S ∪ l.toFinset.filter fun v => D.Alive v ∧ ¬ D.Linked v := by
            rw [List.toFinset_cons, Finset.filter_insert, if_pos ⟨hvD, hl⟩, Finset.union_insert, Finset.insert_union]
          rw [this]
          exact h2

/-- All loose vertices are removed, and nothing else. -/
theorem removeDisconnected_spec {D : Diagram} (h : D.Inv) : ∃ D', D.removeDisconnected = some D' ∧ Pruned D D' D.loose := by
  obtain ⟨D', h1, h2⟩ := removeLoop_spec h (List.range D.size) D ∅ (.refl h)
  refine ⟨D', h1, ?_⟩
  have : (∅ : Finset ℕ) ∪ (List.range D.size).toFinset.filter (fun v => D.Alive v ∧ ¬ D.Linked v) = D.loose := by
    ext v
    unfold loose verts
    simp only [Finset.empty_union, Finset.mem_filter, List.mem_toFinset, List.mem_range, Finset.mem_range]
    tauto
  rw [this] at h2
  exact h2

end Diagram

/-! ### The linear map -/

theorem sumOver_split (A B : Finset ℕ) (hd : Disjoint A B) (g k : (ℕ → Bool) → ℂ) (hg : ∀ x, ∀ a ∈ B, ∀ p, g (update x a p) = g x)
    (hk : ∀ x, ∀ a ∈ A, ∀ p, k (update x a p) = k x) (b : ℕ → Bool) :
    sumOver (A ∪ B) (fun x => g x * k x) b = sumOver A g b * sumOver B k b := by
  induction A using Finset.induction_on generalizing g with
  | empty =>
    rw [Finset.empty_union, sumOver_empty]
    clear hk hd
    induction B using Finset.induction_on generalizing k with
    | empty => rw [sumOver_empty, sumOver_empty]
    | insert a B ha ih =>
      rw [sumOver_insert ha, sumOver_insert ha, ← ih _ fun x c hc p => hg x c (Finset.mem_insert_of_mem hc) p]
      apply sumOver_congr
      intro x
      rw [hg x a (Finset.mem_insert_self _ _), hg x a (Finset.mem_insert_self _ _)]
      ring
  | insert a A ha ih =>
    have haB : a ∉ B := Finset.disjoint_left.1 hd (Finset.mem_insert_self _ _)
    rw [Finset.insert_union, sumOver_insert (by simp [ha, haB]), sumOver_insert ha,
      ← ih (hd.mono_left (Finset.subset_insert _ _)) _ ?_ fun x c hc p => hk x c (Finset.mem_insert_of_mem hc) p]
    · apply sumOver_congr
      intro x
      rw [hk x a (Finset.mem_insert_self _ _), hk x a (Finset.mem_insert_self _ _)]
      ring
    · intro x c hc p
      have hca : c ≠ a := by
        rintro rfl
        exact haB hc
      rw [Function.update_comm hca, Function.update_comm hca, hg _ c hc, hg _ c hc]

theorem Graph.W_union (ρ : ℕ → ℝ) {A B : Finset ℕ} (hd : Disjoint A B) {G : Graph} (h1 : ∀ a ∈ A, ∀ b ∈ B, ∀ t, G.m a b t = 0)
    (h2 : ∀ a ∈ A, ∀ b ∈ B, ∀ t, G.m b a t = 0) (x : ℕ → Bool) : G.W ρ (A ∪ B) x = G.W ρ A x * G.W ρ B x := by
  unfold W
  rw [Finset.prod_union hd, Finset.prod_union hd]
  have e1 : ∀ a ∈ A, (∏ v ∈ A ∪ B, if a < v then G.pf x a v else 1) = ∏ v ∈ A, if a < v then G.pf x a v else 1 := by
    intro a ha
    rw [Finset.prod_union hd, Finset.prod_eq_one (s := B), mul_one]
    intro b hb
    split
    · unfold pf
      rw [h1 a ha b hb, h1 a ha b hb, pow_zero, pow_zero, mul_one]
    · rfl
  have e2 : ∀ b ∈ B, (∏ v ∈ A ∪ B, if b < v then G.pf x b v else 1) = ∏ v ∈ B, if b < v then G.pf x b v else 1 := by
    intro b hb
    rw [Finset.prod_union hd, Finset.prod_eq_one (s := A), one_mul]
    intro a ha
    split
    · unfold pf
      rw [h2 a ha b hb, h2 a ha b hb, pow_zero, pow_zero, mul_one]
    · rfl
  rw [Finset.prod_congr rfl e1, Finset.prod_congr rfl e2]
  ring

namespace Diagram

/-- The linear map is multiplied by the number that is denoted by the removed vertices. -/
theorem Pruned.val {D D' : Diagram} (h : D.Inv) (hb : ∀ v, D.Alive v → (graph D).ty v = .boundary → v ∈ D.inputs ++ D.outputs)
    (p : Pruned D D' D.loose) (ρ : ℕ → ℝ) (β : ℕ → Bool) : D.val ρ β = D.looseVal ρ * D'.val ρ β := by
  have mem : ∀ v, v ∈ D'.verts ↔ D.Alive v ∧ D.Linked v := by
    intro v
    rw [p.inv.mem_verts, p.alive]
    unfold loose
    rw [Finset.mem_filter, h.mem_verts]
    tauto
  have memL : ∀ v, v ∈ D.loose ↔ D.Alive v ∧ ¬ D.Linked v := by
    intro v
    unfold loose
    rw [Finset.mem_filter, h.mem_verts]
  have hvert : ∀ v ∈ D'.verts, D'.vert v = D.vert v := by
    intro v hv
    rw [p.vert, if_neg]
    intro hc
    exact ((memL v).1 hc).2 ((mem v).1 hv).2
  have hdis : Disjoint D'.verts D.loose := Finset.disjoint_left.2 fun v h1 h2 => ((memL v).1 h2).2 ((mem v).1 h1).2
  have hV : D.verts = D'.verts ∪ D.loose := by
    ext v
    rw [Finset.mem_union, mem, memL, h.mem_verts]
    tauto
  have hinL : ∀ v ∈ D.loose, (graph D).ty v ≠ .boundary := by
    intro v hv hc
    obtain ⟨a, hl⟩ := (memL v).1 hv
    exact hl ⟨v, .refl, hb v a hc⟩
  have hI : D.inner = D'.inner ∪ D.loose := by
    ext v
    unfold inner
    rw [Finset.mem_union, Finset.mem_filter, Finset.mem_filter, hV, Finset.mem_union]
    have ht : v ∈ D'.verts → (graph D').ty v = (graph D).ty v := by
      intro hv
      unfold Graph.ty
      show ((D'.vert v).map _).getD _ = ((D.vert v).map _).getD _
      rw [hvert v hv]
    constructor
    · rintro ⟨h1 | h1, h2⟩
      · exact .inl ⟨h1, by rw [ht h1]; exact h2⟩
      · exact .inr h1
    · rintro (⟨h1, h2⟩ | h1)
      · exact ⟨.inl h1, by rw [← ht h1]; exact h2⟩
      · exact ⟨.inr h1, hinL v h1⟩
  have cross : ∀ a ∈ D'.verts, ∀ b ∈ D.loose, ∀ t, (graph D).m a b t = 0 := by
    intro a ha b hb' t
    obtain ⟨a1, a2⟩ := (mem a).1 ha
    obtain ⟨b1, b2⟩ := (memL b).1 hb'
    show (if D.Alive a ∧ D.Alive b then D.mult a b t else 0) = 0
    rw [if_pos ⟨a1, b1⟩]
    unfold mult
    rw [List.count_eq_zero]
    intro he
    exact b2 (a2.of_link (h.link_symm a1 ⟨_, he, rfl⟩).2)
  have hW : ∀ x, (graph D).W ρ D.verts x = (graph D').W ρ D'.verts x * (graph D).W ρ D.loose x := by
    intro x
    rw [hV, Graph.W_union ρ hdis cross fun a ha b hb' t => by rw [graph_symm h]; exact cross a ha b hb' t]
    congr 1
    apply Graph.W_congr ρ (fun v hv => (hvert v hv).symm) ?_ fun _ _ => rfl
    intro u hu v hv t
    obtain ⟨u1, u2⟩ := (mem u).1 hu
    obtain ⟨v1, -⟩ := (mem v).1 hv
    show (if D.Alive u ∧ D.Alive v then D.mult u v t else 0) = (if D'.Alive u ∧ D'.Alive v then D'.mult u v t else 0)
    rw [if_pos ⟨u1, v1⟩, if_pos ⟨p.inv.mem_verts.1 hu, p.inv.mem_verts.1 hv⟩]
    unfold mult
    rw [p.adj u u1 u2]
  have hIsub : D'.inner ⊆ D'.verts := Finset.filter_subset _ _
  unfold Diagram.val looseVal
  rw [hI, sumOver_congr hW, sumOver_split _ _ (hdis.mono_left hIsub), p.gp]
  · have : sumOver D.loose ((graph D).W ρ D.loose) β = sumOver D.loose ((graph D).W ρ D.loose) fun _ => false :=
      sumOver_base (S := D.loose) (fun x x' hx => W_base ρ _ hx) fun v h1 h2 => absurd h1 h2
    rw [this]
    ring
  · intro x a ha q
    apply W_base
    intro v hv
    exact Function.update_of_ne (by rintro rfl; exact Finset.disjoint_left.1 hdis hv ha) _ _
  · intro x a ha q
    apply W_base
    intro v hv
    exact Function.update_of_ne (by rintro rfl; exact Finset.disjoint_left.1 hdis (hIsub ha) hv) _ _

end Diagram

end MQT.ZX
