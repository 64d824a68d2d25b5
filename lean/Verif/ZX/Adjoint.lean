/-
Diagrams without X spiders (`toGraphlike`) and adjoint diagrams (`adjoint`, `invert`).
-/
import Verif.ZX.Step

set_option autoImplicit false

noncomputable section

open Classical

open Function (update)

namespace MQT.ZX

open Diagram

def Edge.toggle (e : Edge) : Edge := ⟨e.tgt, e.type.toggle⟩

namespace Diagram

/-! ### Model -/

/-- The body of the inner loop of `toGraphlike` (ZXDiagram.cpp 207-211) for the edge at index `j`: undefined if there is
no vertex at the other end, or no edge back. -/
def toggleAt (D : Diagram) (v j : ℕ) : Option Diagram :=
  match (D.adj v)[j]? with
  | some e =>
    if e.tgt < D.size then { D with adj := update D.adj v ((D.adj v).set j e.toggle) }.togglePtr e.tgt v else none
  | none => none

/-- The inner loop, from index `j`. -/
def toggleFrom (v : ℕ) : ℕ → ℕ → Diagram → Option Diagram
  | 0, _, D => some D
  | n + 1, j, D => (D.toggleAt v j).bind (toggleFrom v n (j + 1))

/-- The body of the outer loop (ZXDiagram.cpp 203-214). -/
def recolour (D : Diagram) (v : ℕ) : Option Diagram :=
  match D.vert v with
  | some d =>
    if d.type = .x then
      (toggleFrom v (D.adj v).length 0 D).bind fun D1 => some { D1 with vert := update D1.vert v (some { d with type := .z }) }
    else some D
  | none => some D

/-- `toGraphlike` (ZXDiagram.cpp 200-217). -/
def toGraphlike (D : Diagram) : Option Diagram := (List.range D.size).foldlM recolour D

/-- `invert` (ZXDiagram.cpp 225-236). -/
def invert (D : Diagram) : Diagram :=
  { D with
    inputs := D.outputs
    outputs := D.inputs
    vert := fun v => (D.vert v).map fun d => { d with phase := d.phase.neg } }

/-- `adjoint` (ZXDiagram.cpp 219-223). -/
def adjoint (D : Diagram) : Diagram := D.invert

/-! ### Specification -/

/-- The bits of the vertices, given those of the inputs and outputs. -/
def bitsOf (ins outs : List ℕ) (x y : ℕ → Bool) (v : ℕ) : Bool :=
  if v ∈ ins then x (ins.idxOf v) else if v ∈ outs then y (outs.idxOf v) else false

/-- The matrix entry in row `y` and column `x`. -/
def entry (ρ : ℕ → ℝ) (D : Diagram) (y x : ℕ → Bool) : ℂ := val ρ D (bitsOf D.inputs D.outputs x y)

/-- The vertex as Z spider, if it is an X spider. -/
def VData.asZ (d : VData) : VData := if d.type = .x then { d with type := .z } else d

/-! ### Lemmas -/

theorem toggle_toggle (t : EType) : t.toggle.toggle = t := by cases t <;> rfl

theorem edge_toggle_toggle (e : Edge) : e.toggle.toggle = e := by
  cases e
  simp [Edge.toggle, toggle_toggle]

/-- Toggling the edges to `v`. -/
def togTo (v : ℕ) (e : Edge) : Edge := if e.tgt = v then e.toggle else e

theorem togTo_togTo (v : ℕ) (e : Edge) : togTo v (togTo v e) = e := by
  unfold togTo
  by_cases h : e.tgt = v
  · rw [if_pos h, if_pos (show e.toggle.tgt = v from h), edge_toggle_toggle]
  · rw [if_neg h, if_neg h]

theorem togTo_tgt (v : ℕ) (e : Edge) : (togTo v e).tgt = e.tgt := by
  unfold togTo
  split_ifs <;> rfl

theorem setFirst_map {v : ℕ} : ∀ {l : List Edge} {e : Edge}, l.countP (fun e => e.tgt = v) ≤ 1 → findEdge l v = some e →
    setFirst l v e.type.toggle = l.map (togTo v)
  | [], e, _, h => by simp [findEdge] at h
  | a :: l, e, hc, h => by
    unfold setFirst
    by_cases ha : a.tgt = v
    · rw [if_pos ha]
      have : a = e := by
        unfold findEdge at h
        rw [List.find?_cons_of_pos (by simpa using ha)] at h
        simpa using h
      subst this
      rw [List.countP_cons_of_pos (by simpa using ha)] at hc
      have h0 : l.countP (fun e => e.tgt = v) = 0 := by omega
      rw [List.countP_eq_zero] at h0
      have : l.map (togTo v) = l := by
        conv_rhs => rw [← List.map_id l]
        apply List.map_congr_left
        intro b hb
        unfold togTo
        rw [if_neg (by simpa using h0 b hb)]
        rfl
      rw [List.map_cons, this]
      congr 1
      unfold togTo Edge.toggle
      rw [if_pos ha, ha]
    · rw [if_neg ha, List.map_cons]
      have e1 : togTo v a = a := if_neg ha
      rw [e1, setFirst_map]
      · rwa [List.countP_cons_of_neg (by simpa using ha)] at hc
      · unfold findEdge at h ⊢
        rwa [List.find?_cons_of_neg (by simpa using ha)] at h

/-- The lists of edges after `j` passes of the inner loop. -/
def togAdj (D : Diagram) (v j : ℕ) (w : ℕ) : List Edge :=
  if w = v then ((D.adj v).take j).map Edge.toggle ++ (D.adj v).drop j
  else if w ∈ ((D.adj v).take j).map Edge.tgt then (D.adj w).map (togTo v) else D.adj w

def togged (D : Diagram) (v j : ℕ) : Diagram := { D with adj := D.togAdj v j }

theorem conn_le {D : Diagram} (hs : D.Simple) {u v : ℕ} (hu : D.Alive u) (hv : D.Alive v) : D.conn u v ≤ 1 := by
  rw [← graph_total hu hv]
  exact hs u v

theorem tgts_nodup {D : Diagram} (h : D.Inv) (hs : D.Simple) {v : ℕ} (hv : D.Alive v) : ((D.adj v).map Edge.tgt).Nodup := by
  rw [List.nodup_iff_count_le_one]
  intro w
  by_cases hw : w ∈ (D.adj v).map Edge.tgt
  · obtain ⟨e, he, rfl⟩ := List.mem_map.1 hw
    have := conn_le hs hv (h.nb v hv e he).1
    refine le_trans (le_of_eq ?_) this
    unfold conn
    rw [List.count, List.countP_map]
    apply List.countP_congr
    intro a _
    simp
  · rw [List.count_eq_zero.2 hw]
    omega

theorem toggleAt_eq {D : Diagram} (h : D.Inv) (hs : D.Simple) {v : ℕ} (hv : D.Alive v) {j : ℕ} (hj : j < (D.adj v).length) :
    (D.togged v j).toggleAt v j = some (D.togged v (j + 1)) := by
  have hl : (((D.adj v).take j).map Edge.toggle).length = j := by
    rw [List.length_map, List.length_take]; omega
  have hget : ((D.togged v j).adj v)[j]? = some (D.adj v)[j] := by
    show (D.togAdj v j v)[j]? = _
    unfold togAdj
    rw [if_pos rfl, List.getElem?_append_right (by omega), hl, Nat.sub_self, List.getElem?_drop, Nat.add_zero,
      List.getElem?_eq_getElem hj]
  obtain ⟨e, he⟩ : ∃ e, e = (D.adj v)[j] := ⟨_, rfl⟩
  have hm : e ∈ D.adj v := he ▸ List.getElem_mem hj
  obtain ⟨ha, hne⟩ := h.nb v hv e hm
  have htk : (D.adj v).take (j + 1) = (D.adj v).take j ++ [e] := by
    rw [he, List.take_append_getElem]
  have hnt : e.tgt ∉ ((D.adj v).take j).map Edge.tgt := by
    have hn := tgts_nodup h hs hv
    have : ((D.adj v).take (j + 1)).map Edge.tgt = ((D.adj v).take j).map Edge.tgt ++ [e.tgt] := by
      rw [htk, List.map_append]; rfl
    have hsub : (((D.adj v).take (j + 1)).map Edge.tgt).Nodup :=
      hn.sublist ((List.take_sublist _ _).map _)
    rw [this, List.nodup_append] at hsub
    intro hc
    exact hsub.2.2 _ hc _ (List.mem_singleton.2 rfl) rfl
  unfold toggleAt
  rw [hget, ← he]
  simp only
  rw [if_pos (show e.tgt < (D.togged v j).size from h.lt ha)]
  unfold togglePtr
  simp only
  rw [Function.update_of_ne hne]
  have hadj : (D.togged v j).adj e.tgt = D.adj e.tgt := by
    show D.togAdj v j e.tgt = _
    unfold togAdj
    rw [if_neg hne, if_neg hnt]
  rw [hadj]
  have hpos : 0 < D.conn e.tgt v := by
    rw [h.conn_sym ha hv]
    unfold conn
    rw [List.countP_pos_iff]
    exact ⟨e, hm, by simp⟩
  have hle := conn_le hs ha hv
  cases hf : findEdge (D.adj e.tgt) v with
  | none =>
    unfold findEdge at hf
    rw [List.find?_eq_none] at hf
    unfold conn at hpos
    rw [List.countP_pos_iff] at hpos
    obtain ⟨a, h1, h2⟩ := hpos
    exact absurd h2 (hf a h1)
  | some e' =>
    simp only [Option.some.injEq]
    rw [setFirst_map hle hf]
    unfold togged
    simp only [mk.injEq, true_and, and_true]
    funext w
    by_cases hwe : w = e.tgt
    · subst hwe
      rw [Function.update_self]
      unfold togAdj
      rw [if_neg hne, if_pos]
      rw [htk, List.map_append]
      simp
    · rw [Function.update_of_ne hwe]
      by_cases hwv : w = v
      · subst hwv
        rw [Function.update_self]
        unfold togAdj
        rw [if_pos rfl, if_pos rfl, List.set_append_right _ _ (by omega), hl, Nat.sub_self, htk, List.map_append,
          List.append_assoc]
        congr 1
        rw [List.drop_eq_getElem_cons hj]
        rfl
      · rw [Function.update_of_ne hwv]
        unfold togAdj
        rw [if_neg hwv, if_neg hwv, htk, List.map_append]
        simp only [List.mem_append, List.map_cons, List.map_nil, List.mem_singleton, hwe, or_false]

theorem toggleFrom_eq {D : Diagram} (h : D.Inv) (hs : D.Simple) {v : ℕ} (hv : D.Alive v) :
    ∀ n j, j + n = (D.adj v).length → toggleFrom v n j (D.togged v j) = some (D.togged v (D.adj v).length)
  | 0, j, hj => by
    unfold toggleFrom
    rw [← hj, Nat.add_zero]
  | n + 1, j, hj => by
    unfold toggleFrom
    rw [toggleAt_eq h hs hv (by omega), Option.bind_some]
    exact toggleFrom_eq h hs hv n (j + 1) (by omega)

theorem togged_zero (D : Diagram) (v : ℕ) : D.togged v 0 = D := by
  unfold togged
  have : D.togAdj v 0 = D.adj := by
    funext w
    unfold togAdj
    by_cases hw : w = v
    · subst hw; simp
    · simp [hw]
  rw [this]

/-- The diagram after one pass of the outer loop. -/
def recoloured (D : Diagram) (v : ℕ) (d : VData) : Diagram :=
  { D.togged v (D.adj v).length with vert := update D.vert v (some { d with type := .z }) }

theorem recolour_eq {D : Diagram} (h : D.Inv) (hs : D.Simple) {v : ℕ} {d : VData} (hv : D.vert v = some d) (hx : d.type = .x) :
    D.recolour v = some (D.recoloured v d) := by
  unfold recolour
  rw [hv]
  simp only
  rw [if_pos hx]
  have := toggleFrom_eq h hs ⟨d, hv⟩ (D.adj v).length 0 (by omega)
  rw [togged_zero] at this
  rw [this]
  rfl

section
variable {D : Diagram} {v : ℕ} {d : VData}

theorem recoloured_alive (hv : D.vert v = some d) (w : ℕ) : (D.recoloured v d).Alive w ↔ D.Alive w := by
  unfold Alive recoloured
  simp only
  by_cases hw : w = v
  · subst hw; simp [hv]
  · rw [Function.update_of_ne hw]

theorem recoloured_verts (hv : D.vert v = some d) : (D.recoloured v d).verts = D.verts := by
  ext w
  unfold verts
  rw [Finset.mem_filter, Finset.mem_filter, recoloured_alive hv]
  rfl

theorem recoloured_length (w : ℕ) : ((D.recoloured v d).adj w).length = (D.adj w).length := by
  show (D.togAdj v _ w).length = _
  unfold togAdj
  by_cases hw : w = v
  · subst hw; simp
  · rw [if_neg hw]
    split_ifs <;> simp

theorem recoloured_mem {w : ℕ} {e : Edge} (he : e ∈ (D.recoloured v d).adj w) : ∃ e' ∈ D.adj w, e'.tgt = e.tgt := by
  change e ∈ D.togAdj v _ w at he
  unfold togAdj at he
  by_cases hw : w = v
  · subst hw
    rw [if_pos rfl, List.take_length, List.drop_length, List.append_nil] at he
    obtain ⟨a, h1, rfl⟩ := List.mem_map.1 he
    exact ⟨a, h1, rfl⟩
  · rw [if_neg hw] at he
    split_ifs at he
    · obtain ⟨a, h1, rfl⟩ := List.mem_map.1 he
      exact ⟨a, h1, (togTo_tgt v a).symm⟩
    · exact ⟨e, he, rfl⟩

theorem recoloured_mult (h : D.Inv) (hv : D.Alive v) {a b : ℕ} (ha : D.Alive a) (hb : D.Alive b) (t : EType) :
    (D.recoloured v d).mult a b t = D.mult a b (if a = v ∨ b = v then t.toggle else t) := by
  have i1 : Function.Injective Edge.toggle := Function.LeftInverse.injective edge_toggle_toggle
  have i2 : Function.Injective (togTo v) := Function.LeftInverse.injective (togTo_togTo v)
  show (D.togAdj v _ a).count ⟨b, t⟩ = (D.adj a).count _
  unfold togAdj
  by_cases hav : a = v
  · subst hav
    rw [if_pos rfl, if_pos (.inl rfl), List.take_length, List.drop_length, List.append_nil]
    have : (⟨b, t⟩ : Edge) = Edge.toggle ⟨b, t.toggle⟩ := by simp [Edge.toggle, toggle_toggle]
    rw [this, List.count_map_of_injective _ _ i1]
  · rw [if_neg hav, List.take_length]
    by_cases hm : a ∈ (D.adj v).map Edge.tgt
    · rw [if_pos hm]
      by_cases hbv : b = v
      · have : (⟨b, t⟩ : Edge) = togTo v ⟨b, t.toggle⟩ := by simp [togTo, hbv, Edge.toggle, toggle_toggle]
        rw [this, List.count_map_of_injective _ _ i2, if_pos (.inr hbv)]
      · have : (⟨b, t⟩ : Edge) = togTo v ⟨b, t⟩ := by simp [togTo, hbv]
        rw [this, List.count_map_of_injective _ _ i2, if_neg (by tauto)]
    · rw [if_neg hm]
      by_cases hbv : b = v
      · subst hbv
        have hz : D.conn a b = 0 := by
          rw [h.conn_sym ha hb, conn_zero_iff]
          intro e he hc
          exact hm (List.mem_map.2 ⟨e, he, hc⟩)
        have : ∀ s, (D.adj a).count ⟨b, s⟩ = 0 := by
          intro s
          rw [conn_eq] at hz
          unfold mult at hz
          cases s <;> omega
        rw [this, this]
      · rw [if_neg (by tauto)]

theorem recoloured_inv (h : D.Inv) (hv : D.vert v = some d) : (D.recoloured v d).Inv := by
  have hav : D.Alive v := ⟨d, hv⟩
  have hnone : ∀ u, (D.recoloured v d).vert u = none ↔ D.vert u = none := by
    intro u
    have := recoloured_alive hv u
    unfold Alive at this
    constructor
    · intro hh
      by_contra hc
      obtain ⟨x, hx⟩ := Option.ne_none_iff_exists'.1 hc
      obtain ⟨y, hy⟩ := this.2 ⟨x, hx⟩
      rw [hh] at hy; cases hy
    · intro hh
      by_contra hc
      obtain ⟨x, hx⟩ := Option.ne_none_iff_exists'.1 hc
      obtain ⟨y, hy⟩ := this.1 ⟨x, hx⟩
      rw [hh] at hy; cases hy
  refine ⟨?_, ?_, h.nodup, ?_, ?_, ?_, ?_⟩
  · intro u hu
    rw [hnone]
    exact h.out u hu
  · intro u
    rw [hnone]
    exact h.del u
  · rw [recoloured_verts hv]
    exact h.nv
  · rw [recoloured_verts hv]
    simp only [recoloured_length]
    exact h.ne
  · intro a b t ha hb
    rw [recoloured_alive hv] at ha hb
    rw [recoloured_mult h hav ha hb, recoloured_mult h hav hb ha, h.sym a b _ ha hb]
    congr 1
    simp only [or_comm]
  · intro a ha e he
    rw [recoloured_alive hv] at ha
    obtain ⟨e', h1, h2⟩ := recoloured_mem he
    have := h.nb a ha e' h1
    rw [h2] at this
    rw [recoloured_alive hv]
    exact this

theorem recoloured_m (h : D.Inv) (hv : D.vert v = some d) (a b : ℕ) (t : EType) :
    (graph (D.recoloured v d)).m a b t = (graph D).m a b (if a = v ∨ b = v then t.toggle else t) := by
  unfold graph
  simp only
  rw [recoloured_alive hv, recoloured_alive hv]
  by_cases hab : D.Alive a ∧ D.Alive b
  · rw [if_pos hab, if_pos hab, recoloured_mult h ⟨d, hv⟩ hab.1 hab.2]
  · rw [if_neg hab, if_neg hab]

theorem recoloured_total (h : D.Inv) (hv : D.vert v = some d) (a b : ℕ) :
    (graph (D.recoloured v d)).total a b = (graph D).total a b := by
  unfold Graph.total
  rw [recoloured_m h hv, recoloured_m h hv]
  split_ifs
  · simp only [EType.toggle]; omega
  · rfl

theorem recoloured_ty_ne {w : ℕ} (hw : w ≠ v) : (graph (D.recoloured v d)).ty w = (graph D).ty w := by
  unfold Graph.ty graph recoloured
  simp only
  rw [Function.update_of_ne hw]

theorem recoloured_ty_self : (graph (D.recoloured v d)).ty v = .z := by
  unfold Graph.ty graph recoloured
  simp only
  rw [Function.update_self]
  rfl

theorem recoloured_bdry (hv : D.vert v = some d) (hx : d.type = .x) (w : ℕ) :
    (graph (D.recoloured v d)).ty w = .boundary ↔ (graph D).ty w = .boundary := by
  by_cases hw : w = v
  · subst hw
    rw [recoloured_ty_self, ty_of_vert hv, hx]
    simp
  · rw [recoloured_ty_ne hw]

theorem recoloured_good (h : D.Good) (hv : D.vert v = some d) (hx : d.type = .x) : (D.recoloured v d).Good where
  inv := recoloured_inv h.inv hv
  simple a b := by rw [recoloured_total h.inv hv]; exact h.simple a b
  bd b u w hb h1 h2 := by
    rw [recoloured_total h.inv hv] at h1 h2
    rw [recoloured_bdry hv hx] at hb
    exact h.bd b u w hb h1 h2
  range w e he := by
    change update D.vert v _ w = _ at he
    by_cases hw : w = v
    · subst hw
      rw [Function.update_self] at he
      injection he with he
      rw [← he]
      exact h.range w d hv
    · rw [Function.update_of_ne hw] at he
      exact h.range w e he

theorem ew_toggle_left (t : EType) (b : VType) (p q : Bool) : ew t.toggle .z b p q = ew t .x b p q := by
  cases t <;> cases b <;> simp [ew, odd, EType.toggle]

theorem recoloured_pf (h : D.Inv) (hv : D.vert v = some d) (hx : d.type = .x) (x : ℕ → Bool) {a b : ℕ} (hab : a ≠ b) :
    (graph (D.recoloured v d)).pf x a b = (graph D).pf x a b := by
  have key : ∀ b, b ≠ v → (graph (D.recoloured v d)).pf x v b = (graph D).pf x v b := by
    intro b hb
    unfold Graph.pf
    rw [recoloured_m h hv, recoloured_m h hv, if_pos (.inl rfl), if_pos (.inl rfl), recoloured_ty_self, recoloured_ty_ne hb,
      ty_of_vert hv, hx, ← ew_toggle_left .simple, ← ew_toggle_left .hadamard]
    simp only [EType.toggle]
    ring
  by_cases ha : a = v
  · subst ha
    exact key b (Ne.symm hab)
  · by_cases hb : b = v
    · subst hb
      rw [Graph.pf_comm x (graph_symm (recoloured_inv h hv) a b), key a ha, Graph.pf_comm x (graph_symm h b a)]
    · unfold Graph.pf
      rw [recoloured_m h hv, recoloured_m h hv, if_neg (by tauto), if_neg (by tauto), recoloured_ty_ne ha, recoloured_ty_ne hb]

theorem recoloured_val (h : D.Inv) (hv : D.vert v = some d) (hx : d.type = .x) (ρ : ℕ → ℝ) (b : ℕ → Bool) :
    val ρ (D.recoloured v d) b = val ρ D b := by
  have hin : (D.recoloured v d).inner = D.inner := by
    ext w
    rw [mem_inner (recoloured_inv h hv), mem_inner h, ne_eq, recoloured_bdry hv hx]
  have hW : (graph (D.recoloured v d)).W ρ (D.recoloured v d).verts = (graph D).W ρ D.verts := by
    funext x
    rw [recoloured_verts hv]
    unfold Graph.W
    congr 1
    · apply Finset.prod_congr rfl
      intro w _
      by_cases hw : w = v
      · subst hw
        unfold Graph.vf
        have e1 : (graph (D.recoloured w d)).vert w = some { d with type := .z } := by
          show update D.vert w _ w = _
          rw [Function.update_self]
        have e2 : (graph D).vert w = some d := hv
        rw [e1, e2]
        simp only
        rw [hx]
        simp
      · unfold Graph.vf
        have e1 : (graph (D.recoloured v d)).vert w = (graph D).vert w := by
          show update D.vert v _ w = _
          rw [Function.update_of_ne hw]
          rfl
        rw [e1]
    · apply Finset.prod_congr rfl
      intro a _
      apply Finset.prod_congr rfl
      intro c _
      by_cases hlt : a < c
      · rw [if_pos hlt, if_pos hlt, recoloured_pf h hv hx x (by omega)]
      · rw [if_neg hlt, if_neg hlt]
  unfold val
  rw [hin, hW]
  rfl

end

/-! ### The loop -/

theorem graphlike_loop (D : Diagram) (h : D.Inv) (hs : D.Simple) : ∀ n, ∃ D', (List.range n).foldlM recolour D = some D' ∧
    D'.Inv ∧ D'.Simple ∧ (D.Good → D'.Good) ∧
    D'.size = D.size ∧ D'.inputs = D.inputs ∧ D'.outputs = D.outputs ∧ D'.globalPhase = D.globalPhase ∧
    (∀ w, D'.vert w = if w < n then (D.vert w).map VData.asZ else D.vert w) ∧
    (∀ a b, (graph D').total a b = (graph D).total a b) ∧
    ∀ ρ b, val ρ D' b = val ρ D b
  | 0 => ⟨D, rfl, h, hs, id, rfl, rfl, rfl, rfl, fun w => by simp, fun _ _ => rfl, fun _ _ => rfl⟩
  | n + 1 => by
    obtain ⟨D1, e1, g1, sm1, gd1, s1, i1, o1, p1, v1, t1, w1⟩ := graphlike_loop D h hs n
    have hn : D1.vert n = D.vert n := by rw [v1, if_neg (lt_irrefl n)]
    have stay : (∀ d, D.vert n = some d → d.type ≠ .x) → D1.recolour n = some D1 ∧
        ∀ w, D1.vert w = if w < n + 1 then (D.vert w).map VData.asZ else D.vert w := by
      intro hx
      constructor
      · unfold recolour
        rw [hn]
        cases hd : D.vert n with
        | none => rfl
        | some d =>
          simp only
          rw [if_neg (hx d hd)]
      · intro w
        rw [v1]
        by_cases hw : w < n
        · rw [if_pos hw, if_pos (by omega)]
        · by_cases hw' : w = n
          · subst hw'
            rw [if_neg hw, if_pos (by omega)]
            cases hd : D.vert w with
            | none => rfl
            | some d =>
              simp only [Option.map_some]
              unfold VData.asZ
              rw [if_neg (hx d hd)]
          · rw [if_neg hw, if_neg (by omega)]
    rw [List.range_succ, List.foldlM_append, e1]
    show ∃ D', ((D1.recolour n).bind fun D2 => some D2) = some D' ∧ _
    by_cases hx : ∃ d, D.vert n = some d ∧ d.type = .x
    · obtain ⟨d, hd, hdx⟩ := hx
      have hd1 : D1.vert n = some d := hn.trans hd
      rw [recolour_eq g1 sm1 hd1 hdx]
      refine ⟨_, rfl, recoloured_inv g1 hd1, fun a b => by rw [recoloured_total g1 hd1]; exact sm1 a b,
        fun hg => recoloured_good (gd1 hg) hd1 hdx, s1, i1, o1, p1, ?_, ?_, ?_⟩
      · intro w
        show update D1.vert n _ w = _
        by_cases hw : w = n
        · subst hw
          rw [Function.update_self, if_pos (by omega), hd]
          simp only [Option.map_some]
          unfold VData.asZ
          rw [if_pos hdx]
        · rw [Function.update_of_ne hw, v1]
          by_cases hw' : w < n
          · rw [if_pos hw', if_pos (by omega)]
          · rw [if_neg hw', if_neg (by omega)]
      · intro a b
        rw [recoloured_total g1 hd1, t1]
      · intro ρ b
        rw [recoloured_val g1 hd1 hdx, w1]
    · obtain ⟨h1, h2⟩ := stay fun d hd hc => hx ⟨d, hd, hc⟩
      rw [h1]
      exact ⟨D1, rfl, g1, sm1, gd1, s1, i1, o1, p1, h2, t1, w1⟩

/-! ### Adjoints -/

section
variable (D : Diagram)

theorem invert_alive (w : ℕ) : D.invert.Alive w ↔ D.Alive w := by
  unfold Alive invert
  simp only
  cases D.vert w <;> simp

theorem invert_verts : D.invert.verts = D.verts := by
  ext w
  unfold verts
  rw [Finset.mem_filter, Finset.mem_filter, invert_alive]
  rfl

theorem invert_ty (w : ℕ) : (graph D.invert).ty w = (graph D).ty w := by
  unfold Graph.ty graph invert
  simp only
  cases D.vert w <;> rfl

theorem invert_inner : D.invert.inner = D.inner := by
  unfold inner
  rw [invert_verts]
  simp only [invert_ty]

theorem invert_m (a b : ℕ) (t : EType) : (graph D.invert).m a b t = (graph D).m a b t := by
  unfold graph
  simp only
  rw [invert_alive, invert_alive]
  rfl

theorem invert_inv (h : D.Inv) : D.invert.Inv := by
  have hnone : ∀ u, D.invert.vert u = none ↔ D.vert u = none := by
    intro u
    unfold invert
    simp
  refine ⟨?_, ?_, h.nodup, ?_, ?_, ?_, ?_⟩
  · intro u hu
    rw [hnone]
    exact h.out u hu
  · intro u
    rw [hnone]
    exact h.del u
  · rw [invert_verts]
    exact h.nv
  · rw [invert_verts]
    exact h.ne
  · intro a b t ha hb
    rw [invert_alive] at ha hb
    exact h.sym a b t ha hb
  · intro a ha e he
    rw [invert_alive] at ha
    rw [invert_alive]
    exact h.nb a ha e he

theorem invert_good (h : D.Good) : D.invert.Good where
  inv := invert_inv D h.inv
  simple a b := by
    have := h.simple a b
    unfold Graph.total at this ⊢
    rwa [invert_m, invert_m]
  bd b u w hb h1 h2 := by
    unfold Graph.total at h1 h2
    rw [invert_m, invert_m] at h1 h2
    rw [invert_ty] at hb
    exact h.bd b u w hb h1 h2
  range v d hd := by
    unfold invert at hd
    simp only at hd
    cases hv : D.vert v with
    | none => rw [hv] at hd; cases hd
    | some e =>
      rw [hv] at hd
      simp only [Option.map_some, Option.some.injEq] at hd
      rw [← hd]
      exact Phase.neg_inRange (h.range v e hv)

open ComplexConjugate in
theorem conj_u (ρ : ℕ → ℝ) (a : Phase) : conj (a.u ρ) = a.neg.u ρ := by
  rw [Phase.u_neg]
  unfold Phase.u
  rw [← Complex.exp_conj, ← Complex.exp_neg]
  congr 1
  simp

open ComplexConjugate in
theorem conj_ew (t : EType) (a b : VType) (p q : Bool) : conj (ew t a b p q) = ew t a b p q := by
  unfold ew
  split_ifs <;> simp

open ComplexConjugate in
theorem invert_W (ρ : ℕ → ℝ) (V : Finset ℕ) (x : ℕ → Bool) : (graph D.invert).W ρ V x = conj ((graph D).W ρ V x) := by
  unfold Graph.W
  rw [map_mul, map_prod, map_prod]
  congr 1
  · apply Finset.prod_congr rfl
    intro v _
    unfold Graph.vf
    have e1 : (graph D.invert).vert v = ((graph D).vert v).map fun d => { d with phase := d.phase.neg } := rfl
    rw [e1]
    cases (graph D).vert v with
    | none => simp
    | some d =>
      simp only [Option.map_some]
      split_ifs
      · rw [conj_u]
      · simp
  · apply Finset.prod_congr rfl
    intro a _
    rw [map_prod]
    apply Finset.prod_congr rfl
    intro b _
    split_ifs
    · unfold Graph.pf
      rw [map_mul, map_pow, map_pow, conj_ew, conj_ew, invert_m, invert_m, invert_ty, invert_ty]
    · simp

open ComplexConjugate in
theorem invert_val (ρ : ℕ → ℝ) (b : ℕ → Bool) :
    val ρ D.invert b = D.globalPhase.u ρ ^ 2 * conj (val ρ D b) := by
  unfold val
  rw [map_mul, conj_u, Phase.u_neg, invert_inner, invert_verts]
  have : sumOver D.inner ((graph D.invert).W ρ D.verts) b = conj (sumOver D.inner ((graph D).W ρ D.verts) b) := by
    unfold sumOver
    rw [map_sum]
    apply Finset.sum_congr rfl
    intro S _
    exact invert_W D ρ D.verts _
  rw [this]
  show D.globalPhase.u ρ * _ = _
  have := Phase.u_ne_zero ρ D.globalPhase
  field_simp

theorem bitsOf_swap {ins outs : List ℕ} (h : ∀ v ∈ ins, v ∉ outs) (x y : ℕ → Bool) : bitsOf outs ins y x = bitsOf ins outs x y := by
  funext v
  unfold bitsOf
  by_cases h1 : v ∈ ins
  · rw [if_neg (h v h1), if_pos h1, if_pos h1]
  · rw [if_neg h1, if_neg h1]

end

theorem neg_neg_phase {a : Phase} (ha : a.const.InRange) : a.neg.neg = a := by
  obtain ⟨s, c⟩ := a
  have e : ∀ c : PiRational, c.neg.frac = if 1 < -c.frac then -c.frac - 2 else if -c.frac ≤ -1 then -c.frac + 2 else -c.frac := by
    intro c
    unfold PiRational.neg
    rw [PiRational.modPi_eq]
    have : ((-c.frac.num : ℤ) / (c.frac.den : ℤ) : ℚ) = -c.frac := by
      push_cast
      rw [neg_div, ← PiRational.frac_eq]
    simp only [this]
  unfold Phase.neg
  simp only [neg_neg, Phase.mk.injEq, true_and]
  have : c.neg.neg.frac = c.frac := by
    obtain ⟨h1, h2⟩ := ha
    simp only at h1 h2
    rw [e, e]
    grind
  cases h1 : c.neg.neg
  cases c
  rw [h1] at this
  simp only at this
  rw [this]

end Diagram

end MQT.ZX
