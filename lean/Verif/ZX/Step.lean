/-
Changes of phases and edges, and their effect on the weight of (a part of) the diagram.
-/
import Verif.ZX.Rules
import Verif.ZX.Semantics

set_option autoImplicit false

noncomputable section

open Classical

open Function (update)

namespace MQT.ZX

open Diagram

namespace Diagram

/-- At most one edge between any two vertices. -/
def Simple (D : Diagram) : Prop := ∀ u v, (graph D).total u v ≤ 1

/-- The constants of all phases are in (-1, 1]. -/
def Ranged (D : Diagram) : Prop := ∀ v d, D.vert v = some d → d.phase.const.InRange

/-- Boundary vertices have at most one neighbour. -/
def Bd (D : Diagram) : Prop :=
  ∀ b u w, (graph D).ty b = .boundary → 0 < (graph D).total b u → 0 < (graph D).total b w → u = w

/-- What the rules need of a diagram. -/
structure Good (D : Diagram) : Prop where
  inv : D.Inv
  simple : D.Simple
  bd : D.Bd
  range : D.Ranged

theorem graph_symm {D : Diagram} (h : D.Inv) (u v : ℕ) (t : EType) : (graph D).m u v t = (graph D).m v u t := by
  unfold graph
  simp only
  by_cases hu : D.Alive u ∧ D.Alive v
  · rw [if_pos hu, if_pos hu.symm, h.sym u v t hu.1 hu.2]
  · rw [if_neg hu, if_neg (fun h => hu h.symm)]

theorem graph_total_symm {D : Diagram} (h : D.Inv) (u v : ℕ) : (graph D).total u v = (graph D).total v u := by
  unfold Graph.total
  rw [graph_symm h u v .simple, graph_symm h u v .hadamard]

theorem ty_of_vert {D : Diagram} {v : ℕ} {d : VData} (h : D.vert v = some d) : (graph D).ty v = d.type := by
  unfold Graph.ty graph
  simp only
  rw [h]; rfl

theorem alive_of_inner {D : Diagram} {v : ℕ} (h : (graph D).ty v ≠ .boundary) : D.Alive v := by
  cases hv : D.vert v with
  | some d => exact ⟨d, hv⟩
  | none =>
    unfold Graph.ty graph at h
    simp only at h
    rw [hv] at h
    exact absurd rfl h

theorem mem_inner {D : Diagram} (h : D.Inv) {v : ℕ} : v ∈ D.inner ↔ (graph D).ty v ≠ .boundary := by
  unfold inner
  rw [Finset.mem_filter, h.mem_verts]
  exact ⟨fun h => h.2, fun hv => ⟨alive_of_inner hv, hv⟩⟩

theorem type_eq_iff {D : Diagram} (h : D.Inv) {v : ℕ} {t : VType} : D.type v = some t ↔ D.Alive v ∧ (graph D).ty v = t := by
  constructor
  · intro ht
    unfold type at ht
    split_ifs at ht with hlt
    cases hv : D.vert v with
    | none => rw [hv] at ht; simp at ht
    | some d =>
      rw [hv] at ht
      refine ⟨⟨d, hv⟩, ?_⟩
      rw [ty_of_vert hv]
      simpa using ht
  · rintro ⟨⟨d, hd⟩, ht⟩
    rw [(type_of_alive h hd).1, ← ht, ty_of_vert hd]

/-- `D'` differs from `D` in phases and edges only, the latter between pairs in `P`; the weight of the part with
vertices in `V` is multiplied by `F`. -/
structure Step (V : Finset ℕ) (D D' : Diagram) (P : ℕ → ℕ → Prop) (F : (ℕ → ℝ) → (ℕ → Bool) → ℂ) : Prop where
  inv : D'.Inv
  simple : D.Simple → D'.Simple
  range : D.Ranged → D'.Ranged
  size : D'.size = D.size
  type : ∀ w, (D'.vert w).map VData.type = (D.vert w).map VData.type
  gp : D'.globalPhase = D.globalPhase
  inputs : D'.inputs = D.inputs
  outputs : D'.outputs = D.outputs
  m : ∀ a b, ¬ P a b → (graph D').m a b = (graph D).m a b
  adj : ∀ w, (∀ z, ¬ P w z ∧ ¬ P z w) → D'.adj w = D.adj w
  W : ∀ ρ x, (graph D').W ρ V x = (graph D).W ρ V x * F ρ x

namespace Step

variable {V : Finset ℕ} {D D' D₁ D₂ : Diagram} {P Q : ℕ → ℕ → Prop} {F F' : (ℕ → ℝ) → (ℕ → Bool) → ℂ}

theorem alive (s : Step V D D' P F) (w : ℕ) : D'.Alive w ↔ D.Alive w := by
  have := s.type w
  unfold Alive
  cases h1 : D'.vert w <;> cases h2 : D.vert w <;> rw [h1, h2] at this <;> simp at this ⊢

theorem ty (s : Step V D D' P F) (w : ℕ) : (graph D').ty w = (graph D).ty w := by
  unfold Graph.ty graph
  simp only
  rw [s.type w]

theorem verts (s : Step V D D' P F) : D'.verts = D.verts := by
  ext w
  unfold Diagram.verts
  rw [Finset.mem_filter, Finset.mem_filter, s.alive, s.size]

theorem inner (s : Step V D D' P F) : D'.inner = D.inner := by
  unfold Diagram.inner
  rw [s.verts]
  simp only [s.ty]

theorem refl (h : D.Inv) : Step V D D P fun _ _ => 1 :=
  ⟨h, id, id, rfl, fun _ => rfl, rfl, rfl, rfl, fun _ _ _ => rfl, fun _ _ => rfl, fun _ _ => (mul_one _).symm⟩

theorem trans (s : Step V D D₁ P F) (s' : Step V D₁ D₂ Q F') :
    Step V D D₂ (fun a b => P a b ∨ Q a b) fun ρ x => F ρ x * F' ρ x where
  inv := s'.inv
  simple h := s'.simple (s.simple h)
  range h := s'.range (s.range h)
  size := s'.size.trans s.size
  type w := (s'.type w).trans (s.type w)
  gp := s'.gp.trans s.gp
  inputs := s'.inputs.trans s.inputs
  outputs := s'.outputs.trans s.outputs
  m a b h := (s'.m a b fun hq => h (.inr hq)).trans (s.m a b fun hp => h (.inl hp))
  adj w h := (s'.adj w fun z => ⟨fun hq => (h z).1 (.inr hq), fun hq => (h z).2 (.inr hq)⟩).trans
    (s.adj w fun z => ⟨fun hp => (h z).1 (.inl hp), fun hp => (h z).2 (.inl hp)⟩)
  W ρ x := by rw [s'.W, s.W, mul_assoc]

theorem mono (s : Step V D D' P F) (hP : ∀ a b, P a b → Q a b) (hF : ∀ ρ x, F ρ x = F' ρ x) : Step V D D' Q F' where
  inv := s.inv
  simple := s.simple
  range := s.range
  size := s.size
  type := s.type
  gp := s.gp
  inputs := s.inputs
  outputs := s.outputs
  m a b h := s.m a b fun hp => h (hP _ _ hp)
  adj w h := s.adj w fun z => ⟨fun hp => (h z).1 (hP _ _ hp), fun hp => (h z).2 (hP _ _ hp)⟩
  W ρ x := by rw [s.W, hF]

end Step

/-- The pairs of `u` and `v`. -/
def Pair (u v : ℕ) (a b : ℕ) : Prop := (a = u ∧ b = v) ∨ (a = v ∧ b = u)

theorem pi_inRange : piPhase.const.InRange := (PiRational.modPi_range_iff ⟨1⟩).2 (by norm_num)

theorem phased_step {D : Diagram} (h : D.Inv) {V : Finset ℕ} {v : ℕ} (hv : (graph D).ty v ≠ .boundary) {p : Phase}
    (hp : p.const.InRange) (P : ℕ → ℕ → Prop) :
    Step V D (D.phased v p) P fun ρ x => if v ∈ V then (if x v = true then p.u ρ else 1) else 1 where
  inv := (addPhase_eq h (alive_of_inner hv) p).2
  simple hs u w := by rw [graph_phased]; exact hs u w
  range hr w d hd := by
    unfold phased at hd
    simp only at hd
    by_cases hw : w = v
    · subst hw
      rw [Function.update_self] at hd
      cases hx : D.vert w with
      | none => rw [hx] at hd; simp at hd
      | some d' =>
        rw [hx] at hd
        simp only [Option.map_some, Option.some.injEq] at hd
        rw [← hd]
        exact Phase.add_inRange (hr w d' hx) hp
    · rw [Function.update_of_ne hw] at hd
      exact hr w d hd
  size := rfl
  type w := by
    unfold phased
    simp only
    by_cases hw : w = v
    · subst hw
      rw [Function.update_self]
      cases D.vert w <;> rfl
    · rw [Function.update_of_ne hw]
  gp := rfl
  inputs := rfl
  outputs := rfl
  m a b _ := by rw [graph_phased]; rfl
  adj w _ := rfl
  W ρ x := by rw [graph_phased, Graph.W_addPhase ρ _ x hv]

theorem addPhase_step {D : Diagram} (h : D.Inv) (V : Finset ℕ) {v : ℕ} (hv : (graph D).ty v ≠ .boundary) {p : Phase}
    (hp : p.const.InRange) (P : ℕ → ℕ → Prop) : ∃ D', D.addPhase v p = some D' ∧
    Step V D D' P fun ρ x => if v ∈ V then (if x v = true then p.u ρ else 1) else 1 :=
  ⟨_, (addPhase_eq h (alive_of_inner hv) p).1, phased_step h hv hp P⟩

/-- Changes of the edges between two vertices. -/
theorem setM_step {D D' : Diagram} {V : Finset ℕ} {u v : ℕ} (inv : D'.Inv) (f : EType → ℕ)
    (hg : graph D' = (graph D).setM u v f) (h1 : f .simple + f .hadamard ≤ 1) (size : D'.size = D.size)
    (gp : D'.globalPhase = D.globalPhase) (inputs : D'.inputs = D.inputs) (outputs : D'.outputs = D.outputs)
    (hadj : ∀ w, w ≠ u → w ≠ v → D'.adj w = D.adj w) {F : (ℕ → ℝ) → (ℕ → Bool) → ℂ}
    (hW : ∀ ρ x, (graph D').W ρ V x = (graph D).W ρ V x * F ρ x) : Step V D D' (Pair u v) F where
  inv := inv
  simple hs a b := by
    rw [hg]
    unfold Graph.setM Graph.total
    simp only
    split_ifs
    · exact h1
    · exact hs a b
  range hr w d hd := by
    have : D'.vert = D.vert := congrArg Graph.vert hg
    rw [this] at hd
    exact hr w d hd
  size := size
  type w := by
    have : D'.vert = D.vert := congrArg Graph.vert hg
    rw [this]
  gp := gp
  inputs := inputs
  outputs := outputs
  m a b hP := by
    rw [hg]
    unfold Graph.setM
    simp only
    exact if_neg hP
  adj w hw := hadj w (fun e => (hw v).1 (.inl ⟨e, rfl⟩)) (fun e => (hw u).1 (.inr ⟨e, rfl⟩))
  W := hW

/-- Adding an edge with `addEdgeParallelAware`: between spiders, or where there was no edge. -/
theorem epa_step {D : Diagram} (h : D.Inv) (hs : D.Simple) {V : Finset ℕ} {u v : ℕ} (hu : u ∈ V) (hv : v ∈ V)
    (au : D.Alive u) (av : D.Alive v) (t : EType)
    (hb : ((graph D).ty u ≠ .boundary ∧ (graph D).ty v ≠ .boundary) ∨ (u ≠ v ∧ (graph D).total u v = 0)) :
    ∃ D', D.addEdgeParallelAware u v t = some D' ∧
      Step V D D' (Pair u v) fun _ x => ew t ((graph D).ty u) ((graph D).ty v) (x u) (x v) := by
  obtain ⟨du, hdu⟩ := au
  obtain ⟨dv, hdv⟩ := av
  have tu := ty_of_vert hdu
  have tv := ty_of_vert hdv
  by_cases huv : u = v
  · subst huv
    have hbu : (graph D).ty u ≠ .boundary := by
      rcases hb with hb | hb
      · exact hb.1
      · exact absurd rfl hb.1
    obtain ⟨D', h1, h2, h3⟩ := addEPA_self h hdu t
    refine ⟨D', h1, ?_⟩
    subst h3
    rw [tu] at hbu
    cases t with
    | simple =>
      rw [if_neg (by simp)]
      refine (Step.refl h).mono (fun _ _ h => h) ?_
      intro ρ x
      unfold ew odd
      simp
    | hadamard =>
      rw [if_pos ⟨hbu, rfl⟩]
      refine (phased_step h (by rw [tu]; exact hbu) pi_inRange _).mono (fun _ _ h => h) ?_
      intro ρ x
      rw [if_pos hu, show piPhase.u ρ = -1 from Phase.u_pi ρ]
      unfold ew odd
      simp
  · have hc : D.conn u v ≤ 1 := by
      rw [← graph_total ⟨du, hdu⟩ ⟨dv, hdv⟩]; exact hs u v
    obtain ⟨D', h1, h2, h3⟩ := addEPA_result h hdu hdv huv hc t
    refine ⟨D', h1, ?_⟩
    have au : D.Alive u := ⟨du, hdu⟩
    have av : D.Alive v := ⟨dv, hdv⟩
    obtain ⟨D'', g1, g2, g3⟩ : ∃ D'', D.addEdgeParallelAware u v t = some D'' ∧ D'' = D' ∧ True := ⟨D', h1, rfl, trivial⟩
    have hsym := graph_symm h
    have e2 : ∀ s, (graph D).m u v s = D.mult u v s := fun s => if_pos ⟨au, av⟩
    have hsum := conn_eq D u v
    have htot := graph_total au av
    have hmerge : ∀ D', (graph D).total u v = 1 → du.type ≠ .boundary → dv.type ≠ .boundary →
        graph D' = (graph D).merge u v du.type dv.type t →
        ∀ ρ x, (graph D').W ρ V x = (graph D).W ρ V x * ew t ((graph D).ty u) ((graph D).ty v) (x u) (x v) := by
      intro D' c b1 b2 hg ρ x
      rw [hg, ← tu, ← tv]
      exact Graph.W_merge ρ hsym x hu hv huv c (by rw [tu]; exact b1) (by rw [tv]; exact b2) t
    cases h3 with
    | new h0 =>
      have hm : ∀ s, D.mult u v s = 0 := by intro s; cases s <;> omega
      have hg := graph_added h au av huv t
      simp only [hm] at hg
      refine setM_step h2 _ hg (by cases t <;> simp) rfl rfl rfl rfl ?_ ?_
      · intro w w1 w2
        unfold added
        simp only
        rw [Function.update_of_ne w2, Function.update_of_ne w1]
      · intro ρ x
        rw [hg, Graph.W_setM ρ _ x hu hv huv]
        have e0 : (graph D).setM u v (fun _ => 0) = graph D := by
          have := Graph.setM_self hsym u v
          rw [show (graph D).m u v = fun _ => 0 by funext s; rw [e2, hm]] at this
          exact this
        rw [e0]
        cases t <;> simp <;> ring
    | boundary h0 hb' =>
      exfalso
      rcases hb with hb | hb
      · rw [tu, tv] at hb; tauto
      · omega
    | cancel h0 hm b1 b2 ht =>
      have hg := graph_dropped au av huv
      refine setM_step h2 _ hg (by simp) rfl rfl rfl rfl ?_ (hmerge _ (by omega) b1 b2 ?_)
      · intro w w1 w2
        unfold dropped
        simp only
        rw [Function.update_of_ne w2, Function.update_of_ne w1]
      · rw [hg]
        unfold Graph.merge
        rw [e2, if_pos (by omega), if_neg]
        unfold Graph.Equates
        rw [← ht]
        cases t <;> simp
    | idem h0 hm b1 b2 ht =>
      have s := Step.refl (V := V) (P := Pair u v) h
      refine ⟨s.inv, s.simple, s.range, s.size, s.type, s.gp, s.inputs, s.outputs, s.m, s.adj, hmerge _ (by omega) b1 b2 ?_⟩
      · unfold Graph.merge
        rw [e2, if_pos (by omega), if_pos (show Graph.Equates _ _ _ from ht)]
    | phase h0 hm b1 b2 ht =>
      have s := phased_step (V := V) h (v := u) (by rw [tu]; exact b1) pi_inRange (Pair u v)
      refine ⟨s.inv, s.simple, s.range, s.size, s.type, s.gp, s.inputs, s.outputs, s.m, s.adj, hmerge _ (by omega) b1 b2 ?_⟩
      rw [graph_phased]
      unfold Graph.merge
      have hz : D.mult u v t = 0 := by cases t <;> simp only [EType.toggle] at hm <;> omega
      rw [e2, if_neg (by omega), if_neg]
      unfold Graph.Equates
      rw [← ht]
      cases t <;> simp
    | flip h0 hm b1 b2 ht =>
      have hg := graph_flipped h au av huv h0 t
      have hF : ∃ F : (ℕ → ℝ) → (ℕ → Bool) → ℂ, F = fun _ _ => 0 := ⟨_, rfl⟩
      have hinv := flipped_inv h au av huv h0 t
      have hty : (graph (D.flipped u v t)).ty u ≠ .boundary := by
        rw [hg]; show (graph D).ty u ≠ _; rw [tu]; exact b1
      have s := phased_step (V := V) hinv (v := u) hty pi_inRange (Pair u v)
      have hm2 : ∀ a b, ¬ Pair u v a b → (graph (D.flipped u v t)).m a b = (graph D).m a b := by
        intro a b hP
        rw [hg]; unfold Graph.setM; simp only; exact if_neg hP
      refine ⟨s.inv, fun hsim => s.simple fun a b => ?_, fun hr => s.range hr, s.size, s.type, s.gp, s.inputs, s.outputs,
        fun a b hP => (s.m a b hP).trans (hm2 a b hP), fun w hw => (s.adj w hw).trans ?_, hmerge _ (by omega) b1 b2 ?_⟩
      · rw [hg]
        unfold Graph.setM Graph.total
        simp only
        split_ifs
        all_goals first | exact hsim a b | (cases t <;> simp_all)
      · unfold flipped
        simp only
        rw [Function.update_of_ne (fun e => (hw u).1 (.inr ⟨e, rfl⟩)), Function.update_of_ne (fun e => (hw v).1 (.inl ⟨e, rfl⟩))]
      · rw [graph_phased, hg]
        unfold Graph.merge
        have hz : D.mult u v t = 0 := by cases t <;> simp only [EType.toggle] at hm <;> omega
        rw [e2, if_neg (by omega), if_pos (show Graph.Equates _ _ _ from ht)]

/-- Loops over edges. -/
theorem forEdges_step {D₀ : Diagram} {V : Finset ℕ} {v : ℕ} {l : List Edge} {body : Edge → Diagram → Option Diagram}
    (h₀ : D₀.Inv) (Pe : Edge → ℕ → ℕ → Prop) (Fe : Edge → (ℕ → ℝ) → (ℕ → Bool) → ℂ)
    (hv : ∀ e ∈ l, ∀ z, ¬ Pe e v z ∧ ¬ Pe e z v)
    (hb : ∀ l₁ e l₂, l = l₁ ++ e :: l₂ → ∀ D₁,
      Step V D₀ D₁ (fun a b => ∃ e' ∈ l₁, Pe e' a b) (fun ρ x => (l₁.map fun e' => Fe e' ρ x).prod) →
      ∃ D₂, body e D₁ = some D₂ ∧ Step V D₁ D₂ (Pe e) (Fe e)) :
    ∃ D', forEdges v body l D₀ = some D' ∧
      Step V D₀ D' (fun a b => ∃ e ∈ l, Pe e a b) (fun ρ x => (l.map fun e => Fe e ρ x).prod) := by
  have main : ∀ (l₂ l₁ : List Edge) (D₁ : Diagram), l = l₁ ++ l₂ →
      Step V D₀ D₁ (fun a b => ∃ e' ∈ l₁, Pe e' a b) (fun ρ x => (l₁.map fun e' => Fe e' ρ x).prod) →
      ∃ D', forEdges v body l₂ D₁ = some D' ∧
        Step V D₀ D' (fun a b => ∃ e ∈ l, Pe e a b) (fun ρ x => (l.map fun e => Fe e ρ x).prod) := by
    intro l₂
    induction l₂ with
    | nil =>
      intro l₁ D₁ hl s
      rw [List.append_nil] at hl
      subst hl
      exact ⟨D₁, rfl, s⟩
    | cons e r ih =>
      intro l₁ D₁ hl s
      obtain ⟨D₂, h1, h2⟩ := hb l₁ e r hl D₁ s
      have hadj : D₂.adj v = D₁.adj v := h2.adj v (hv e (by rw [hl]; simp))
      obtain ⟨D', h3, h4⟩ := ih (l₁ ++ [e]) D₂ (by rw [hl]; simp) ((s.trans h2).mono
        (by
          rintro a b (⟨e', m, hp⟩ | hp)
          · exact ⟨e', by simp [m], hp⟩
          · exact ⟨e, by simp, hp⟩)
        (by intro ρ x; simp))
      refine ⟨D', ?_, h4⟩
      unfold forEdges
      rw [h1]
      simp only [Option.bind_eq_bind, Option.bind_some]
      rw [if_pos hadj]
      exact h3
  exact main l [] D₀ rfl ((Step.refl h₀).mono (fun _ _ h => h) (by intro ρ x; simp))

/-! ### Taking vertices out -/

/-- The edges of a vertex as a list. -/
theorem prod_pf {D : Diagram} (h : D.Inv) {V : Finset ℕ} (hV : V ⊆ D.verts) (x : ℕ → Bool) {v : ℕ} (hv : D.Alive v) :
    (∏ w ∈ V, (graph D).pf x v w) =
      ((D.adj v).map fun e => if e.tgt ∈ V then ew e.type ((graph D).ty v) ((graph D).ty e.tgt) (x v) (x e.tgt) else 1).prod := by
  have gen : ∀ l : List Edge, (∏ w ∈ V, ew .simple ((graph D).ty v) ((graph D).ty w) (x v) (x w) ^ l.count ⟨w, .simple⟩ *
      ew .hadamard ((graph D).ty v) ((graph D).ty w) (x v) (x w) ^ l.count ⟨w, .hadamard⟩) =
      (l.map fun e => if e.tgt ∈ V then ew e.type ((graph D).ty v) ((graph D).ty e.tgt) (x v) (x e.tgt) else 1).prod := by
    intro l
    induction l with
    | nil => simp
    | cons e l ih =>
      rw [List.map_cons, List.prod_cons, ← ih]
      obtain ⟨w0, t⟩ := e
      have : ∀ w ∈ V, ew .simple ((graph D).ty v) ((graph D).ty w) (x v) (x w) ^ (Edge.mk w0 t :: l).count ⟨w, .simple⟩ *
          ew .hadamard ((graph D).ty v) ((graph D).ty w) (x v) (x w) ^ (Edge.mk w0 t :: l).count ⟨w, .hadamard⟩ =
          (if w = w0 then ew t ((graph D).ty v) ((graph D).ty w0) (x v) (x w0) else 1) *
          (ew .simple ((graph D).ty v) ((graph D).ty w) (x v) (x w) ^ l.count ⟨w, .simple⟩ *
          ew .hadamard ((graph D).ty v) ((graph D).ty w) (x v) (x w) ^ l.count ⟨w, .hadamard⟩) := by
        intro w _
        rw [List.count_cons, List.count_cons]
        by_cases hw : w = w0
        · subst hw
          cases t <;> simp [pow_succ] <;> ring
        · simp [hw, Ne.symm hw]
      rw [Finset.prod_congr rfl this, Finset.prod_mul_distrib, Finset.prod_ite_eq']
  rw [← gen]
  apply Finset.prod_congr rfl
  intro w hw
  have hwa := h.mem_verts.1 (hV hw)
  unfold Graph.pf
  have e2 : ∀ s, (graph D).m v w s = (D.adj v).count ⟨w, s⟩ := fun s => if_pos ⟨hv, hwa⟩
  rw [e2, e2]

/-- Removing a vertex restricts the graph. -/
theorem W_without (ρ : ℕ → ℝ) (D : Diagram) (v : ℕ) {V : Finset ℕ} (hV : v ∉ V) (x : ℕ → Bool) :
    (graph (D.without v)).W ρ V x = (graph D).W ρ V x := by
  apply Graph.W_congr
  · intro w hw
    rw [graph_without]
    show update D.vert v none w = D.vert w
    rw [Function.update_of_ne]
    rintro rfl; exact hV hw
  · intro a ha b hb t
    rw [graph_without]
    simp only
    rw [if_neg]
    rintro (rfl | rfl)
    · exact hV ha
    · exact hV hb
  · intro _ _; rfl

theorem without_ty (D : Diagram) (v w : ℕ) : (graph (D.without v)).ty w = if w = v then .boundary else (graph D).ty w := by
  rw [graph_without]
  unfold Graph.ty
  simp only
  by_cases hw : w = v
  · subst hw; simp
  · rw [Function.update_of_ne hw, if_neg hw]; rfl

theorem without_inner {D : Diagram} (h : D.Inv) {v : ℕ} (hv : D.Alive v) : (D.without v).inner = D.inner.erase v := by
  ext w
  rw [mem_inner (without_inv h hv), Finset.mem_erase, mem_inner h, without_ty]
  by_cases hw : w = v <;> simp [hw]

theorem without_simple {D : Diagram} (h : D.Simple) (v : ℕ) : (D.without v).Simple := by
  intro a b
  rw [graph_without]
  unfold Graph.total
  simp only
  split_ifs
  · omega
  · exact h a b

theorem without_range {D : Diagram} (h : D.Ranged) (v : ℕ) : (D.without v).Ranged := by
  intro w d hd
  have hd' : update D.vert v none w = some d := hd
  by_cases hw : w = v
  · subst hw; simp at hd'
  · rw [Function.update_of_ne hw] at hd'
    exact h w d hd'

end Diagram

end MQT.ZX
