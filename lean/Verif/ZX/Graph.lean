/-
The multigraphs stored in ZX diagrams: the specification of the operations on diagrams (Props/ZXDiagram.lean) and
the basis of the semantics (ZX/Semantics.lean).
-/
import Verif.ZX.Diagram

set_option autoImplicit false

noncomputable section

open Classical

open Function (update)

namespace MQT.ZX

open Diagram

/-! ### Specification: multigraphs -/

/-- A multigraph: its vertices, and how many edges of each type there are between two vertices. -/
structure Graph where
  vert : ℕ → Option VData
  m : ℕ → ℕ → EType → ℕ

namespace Graph

def total (G : Graph) (u v : ℕ) : ℕ := G.m u v .simple + G.m u v .hadamard

/-- The multiplicities with those between `u` and `v` replaced. -/
def setM (G : Graph) (u v : ℕ) (f : EType → ℕ) : Graph :=
  { G with m := fun a b => if (a = u ∧ b = v) ∨ (a = v ∧ b = u) then f else G.m a b }

def addPhase (G : Graph) (v : ℕ) (p : Phase) : Graph :=
  { G with vert := update G.vert v ((G.vert v).map fun d => { d with phase := d.phase.add p }) }

/-- Whether an edge of type `t` between inner vertices equates them: a plain edge between vertices of one colour, a
Hadamard edge between vertices of different colours. -/
def Equates (tu tv : VType) (t : EType) : Prop := t = .simple ↔ tu = tv

/-- Edges between two inner vertices, one present and one added: two of the equating kind are as good as one, two
of the other kind cancel, and one of each kind leaves the equating one and a phase π. -/
def merge (G : Graph) (u v : ℕ) (tu tv : VType) (t : EType) : Graph :=
  if 0 < G.m u v t then
    if Equates tu tv t then G else G.setM u v fun _ => 0
  else
    if Equates tu tv t then (G.setM u v fun s => if s = t then 1 else 0).addPhase u piPhase else G.addPhase u piPhase

end Graph

/-- The multigraph stored in a diagram. -/
def graph (D : Diagram) : Graph := ⟨D.vert, fun u v t => if D.Alive u ∧ D.Alive v then D.mult u v t else 0⟩

/-! ### Lemmas -/

theorem graph_total {D : Diagram} {u v : ℕ} (hu : D.Alive u) (hv : D.Alive v) : (graph D).total u v = D.conn u v := by
  unfold Graph.total graph
  simp only
  rw [if_pos ⟨hu, hv⟩, if_pos ⟨hu, hv⟩, conn_eq]

theorem graph_ext {D : Diagram} {G : Graph} (h1 : D.vert = G.vert) (h2 : ∀ a b t, D.Alive a → D.Alive b → D.mult a b t = G.m a b t)
    (h3 : ∀ a b t, ¬ (D.Alive a ∧ D.Alive b) → G.m a b t = 0) : graph D = G := by
  obtain ⟨Gv, Gm⟩ := G
  unfold graph
  simp only at h1 h2 h3
  rw [Graph.mk.injEq]
  refine ⟨h1, ?_⟩
  funext a b t
  split_ifs with h
  · exact h2 a b t h.1 h.2
  · exact (h3 a b t h).symm

/-- Diagrams that differ between `u` and `v` only. -/
theorem graph_setM {D D' : Diagram} {u v : ℕ} (hu : D.Alive u) (hv : D.Alive v) (f : EType → ℕ) (hvert : D'.vert = D.vert)
    (hm : ∀ a b t, D.Alive a → D.Alive b →
      D'.mult a b t = if (a = u ∧ b = v) ∨ (a = v ∧ b = u) then f t else D.mult a b t) :
    graph D' = (graph D).setM u v f := by
  have hal : ∀ w, D'.Alive w ↔ D.Alive w := fun w => by unfold Alive; rw [hvert]
  apply graph_ext
  · exact hvert
  · intro a b t ha hb
    have ha' := (hal a).1 ha
    have hb' := (hal b).1 hb
    rw [hm a b t ha' hb']
    unfold Graph.setM graph
    simp only
    split_ifs <;> first | rfl | (exfalso; tauto)
  · intro a b t hn
    rw [hal, hal] at hn
    unfold Graph.setM graph
    simp only
    have : ¬ ((a = u ∧ b = v) ∨ (a = v ∧ b = u)) := by
      rintro (⟨rfl, rfl⟩ | ⟨rfl, rfl⟩)
      · exact hn ⟨hu, hv⟩
      · exact hn ⟨hv, hu⟩
    rw [if_neg this, if_neg hn]

theorem graph_added {D : Diagram} (h : D.Inv) {u v : ℕ} (hu : D.Alive u) (hv : D.Alive v) (huv : u ≠ v) (t : EType) :
    graph (D.added u v t) = (graph D).setM u v fun s => if s = t then D.mult u v s + 1 else D.mult u v s := by
  apply graph_setM hu hv
  · rfl
  · intro a b s ha hb
    unfold mult added
    simp only
    by_cases h1 : a = v
    · subst h1
      rw [Function.update_self, List.count_append, List.count_singleton]
      by_cases h2 : b = u
      · subst h2
        have := h.sym a b s ha hb
        unfold mult at this
        rw [this]
        by_cases h3 : s = t
        · subst h3; simp
        · simp [h3, Ne.symm h3]
      · simp [h2, Ne.symm h2, huv.symm]
    · rw [Function.update_of_ne h1]
      by_cases h2 : a = u
      · subst h2
        rw [Function.update_self, List.count_append, List.count_singleton]
        by_cases h3 : b = v
        · subst h3
          by_cases h4 : s = t
          · subst h4; simp
          · simp [h4, Ne.symm h4]
        · simp [h1, h3, Ne.symm h3]
      · rw [Function.update_of_ne h2]
        simp [h1, h2]

theorem graph_dropped {D : Diagram} {u v : ℕ} (hu : D.Alive u) (hv : D.Alive v) (huv : u ≠ v) :
    graph (D.dropped u v) = (graph D).setM u v fun _ => 0 := by
  apply graph_setM hu hv
  · rfl
  · intro a b s ha hb
    unfold mult dropped
    simp only
    by_cases h1 : a = v
    · subst h1
      rw [Function.update_self, count_filter_ne]
      simp [huv.symm]
    · rw [Function.update_of_ne h1]
      by_cases h2 : a = u
      · subst h2
        rw [Function.update_self, count_filter_ne]
        simp [h1]
      · rw [Function.update_of_ne h2]
        simp [h1, h2]

theorem graph_flipped {D : Diagram} (h : D.Inv) {u v : ℕ} (hu : D.Alive u) (hv : D.Alive v) (huv : u ≠ v)
    (hc : D.conn u v = 1) (t : EType) :
    graph (D.flipped u v t) = (graph D).setM u v fun s => if s = t then 1 else 0 := by
  have hc' : D.conn v u = 1 := by rw [← h.conn_sym hu hv]; exact hc
  apply graph_setM hu hv
  · rfl
  · intro a b s ha hb
    unfold mult flipped
    simp only
    by_cases h1 : a = v
    · subst h1
      rw [Function.update_self, setFirst_count t hc']
      simp [huv.symm]
    · rw [Function.update_of_ne h1]
      by_cases h2 : a = u
      · subst h2
        rw [Function.update_self, setFirst_count t hc]
        simp [h1]
      · rw [Function.update_of_ne h2]
        simp [h1, h2]

theorem phased_alive (D : Diagram) (u w : ℕ) (p : Phase) : (D.phased u p).Alive w ↔ D.Alive w := by
  unfold Alive phased
  simp only
  by_cases h : w = u
  · subst h
    rw [Function.update_self]
    cases D.vert w <;> simp
  · rw [Function.update_of_ne h]

theorem graph_phased (D : Diagram) (u : ℕ) (p : Phase) : graph (D.phased u p) = (graph D).addPhase u p := by
  apply graph_ext
  · rfl
  · intro a b t ha hb
    rw [phased_alive] at ha hb
    unfold Graph.addPhase graph
    simp only
    rw [if_pos ⟨ha, hb⟩]
    rfl
  · intro a b t hn
    rw [phased_alive, phased_alive] at hn
    unfold Graph.addPhase graph
    simp only
    rw [if_neg hn]

theorem graph_addVertex {D : Diagram} (h : D.Inv) (d : VData) :
    D.vert (D.addVertex d).2 = none ∧
    graph (D.addVertex d).1 = { graph D with vert := update D.vert (D.addVertex d).2 (some d) } := by
  obtain ⟨_, h2, h3, h4, _⟩ := addVertex_inv h d
  have hn : D.vert (D.addVertex d).2 = none := by
    cases hx : D.vert (D.addVertex d).2 with
    | none => rfl
    | some x => exact absurd ⟨x, hx⟩ h2
  have hal : ∀ w, w ≠ (D.addVertex d).2 → ((D.addVertex d).1.Alive w ↔ D.Alive w) := by
    intro w hw
    unfold Alive
    rw [h3, Function.update_of_ne hw]
  refine ⟨hn, graph_ext h3 ?_ ?_⟩
  · intro a b t ha hb
    unfold mult graph
    simp only
    rw [h4]
    by_cases e1 : a = (D.addVertex d).2
    · rw [if_neg (fun hc => h2 (e1 ▸ hc.1)), e1, Function.update_self]
      rfl
    · have ha' := (hal a e1).1 ha
      rw [Function.update_of_ne e1]
      by_cases e2 : b = (D.addVertex d).2
      · rw [if_neg (fun hc => h2 (e2 ▸ hc.2)), List.count_eq_zero]
        intro hm
        exact h2 (e2 ▸ (h.nb a ha' _ hm).1)
      · rw [if_pos ⟨ha', (hal b e2).1 hb⟩]
        rfl
  · intro a b t hnn
    unfold graph
    simp only
    rw [if_neg]
    rintro ⟨ha, hb⟩
    apply hnn
    constructor
    · rw [hal a (fun e => h2 (e ▸ ha))]; exact ha
    · rw [hal b (fun e => h2 (e ▸ hb))]; exact hb

theorem graph_without (D : Diagram) (v : ℕ) :
    graph (D.without v) = ⟨update D.vert v none, fun a b t => if a = v ∨ b = v then 0 else (graph D).m a b t⟩ := by
  apply graph_ext
  · rfl
  · intro a b t ha hb
    rw [without_alive] at ha hb
    simp only
    rw [if_neg (by tauto)]
    unfold graph mult without
    simp only
    rw [if_pos ha, if_pos ⟨ha.1, hb.1⟩, count_filter_ne, if_neg hb.2]
  · intro a b t hn
    rw [without_alive, without_alive] at hn
    simp only
    split_ifs with h1
    · rfl
    · unfold graph
      simp only
      rw [if_neg (by tauto)]

end MQT.ZX
