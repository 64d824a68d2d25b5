/-
The linear maps of diagrams under construction.
-/
import Verif.ZX.Build

set_option autoImplicit false

noncomputable section

open Classical

open Function (update)

namespace MQT.ZX

open MQT.IR

open Diagram hiding phase

/-! ### Weighted sums over a diagram -/

/-- The sum over the bits of the spiders of the weight of the diagram times `f`. -/
def Diagram.lin (ρ : ℕ → ℝ) (D : Diagram) (f : (ℕ → Bool) → ℂ) (β : ℕ → Bool) : ℂ :=
  D.globalPhase.u ρ * sumOver D.inner (fun x => (graph D).W ρ D.verts x * f x) β

theorem val_eq_lin (ρ : ℕ → ℝ) (D : Diagram) (β : ℕ → Bool) : val ρ D β = D.lin ρ (fun _ => 1) β := by
  unfold val lin
  simp only [mul_one]

theorem sumOver_add (L : Finset ℕ) (f g : (ℕ → Bool) → ℂ) (b : ℕ → Bool) :
    sumOver L (fun x => f x + g x) b = sumOver L f b + sumOver L g b := by
  unfold sumOver
  rw [Finset.sum_add_distrib]

/-- Only assignments that extend `b` matter. -/
theorem sumOver_congr_on {L : Finset ℕ} {f g : (ℕ → Bool) → ℂ} {b : ℕ → Bool}
    (h : ∀ x, (∀ v, v ∉ L → x v = b v) → f x = g x) : sumOver L f b = sumOver L g b := by
  unfold sumOver
  apply Finset.sum_congr rfl
  intro S _
  apply h
  intro v hv
  rw [if_neg hv]

namespace Diagram

theorem lin_add (ρ : ℕ → ℝ) (D : Diagram) (f g : (ℕ → Bool) → ℂ) (β : ℕ → Bool) :
    D.lin ρ (fun x => f x + g x) β = D.lin ρ f β + D.lin ρ g β := by
  unfold lin
  rw [← mul_add, ← sumOver_add]
  simp only [mul_add]

theorem lin_smul (ρ : ℕ → ℝ) (D : Diagram) (c : ℂ) (f : (ℕ → Bool) → ℂ) (β : ℕ → Bool) :
    D.lin ρ (fun x => c * f x) β = c * D.lin ρ f β := by
  unfold lin
  rw [mul_left_comm]
  congr 1
  rw [← sumOver_mul]
  apply sumOver_congr
  intro x
  ring

theorem lin_congr (ρ : ℕ → ℝ) (D : Diagram) {f g : (ℕ → Bool) → ℂ} (h : ∀ x, f x = g x) (β : ℕ → Bool) :
    D.lin ρ f β = D.lin ρ g β := by
  rw [show f = g from funext h]

/-! ### Adding a spider -/

/-- What adding a vertex does. -/
structure AddV (D D1 : Diagram) (w : ℕ) (d : VData) : Prop where
  inv : D1.Inv
  new : ¬ D.Alive w
  vert : D1.vert = update D.vert w (some d)
  gp : D1.globalPhase = D.globalPhase
  inputs : D1.inputs = D.inputs
  outputs : D1.outputs = D.outputs
  verts : D1.verts = insert w D.verts
  m : ∀ a b t, (graph D1).m a b t = (graph D).m a b t
  dead : ∀ a t, (graph D).m w a t = 0

theorem addVertex_addV {D : Diagram} (h : D.Inv) (d : VData) : AddV D (D.addVertex d).1 (D.addVertex d).2 d := by
  obtain ⟨h1, h2, h3, h4, h5, h6, h7, h8⟩ := addVertex_inv h d
  obtain ⟨_, gr⟩ := graph_addVertex h d
  refine ⟨h1, h2, h3, h6, h7, h8, h5, ?_, ?_⟩
  · intro a b t
    rw [gr]
  · intro a t
    unfold graph
    simp only
    rw [if_neg fun hh => h2 hh.1]

namespace AddV

variable {D D1 : Diagram} {w : ℕ} {d : VData}

theorem ty_new (s : AddV D D1 w d) : (graph D1).ty w = d.type := by
  apply ty_of_vert
  rw [s.vert, Function.update_self]

theorem ty_old (s : AddV D D1 w d) {v : ℕ} (hv : v ≠ w) : (graph D1).ty v = (graph D).ty v := by
  unfold Graph.ty graph
  simp only
  rw [s.vert, Function.update_of_ne hv]

theorem alive (s : AddV D D1 w d) (v : ℕ) : D1.Alive v ↔ v = w ∨ D.Alive v := by
  unfold Alive
  rw [s.vert]
  by_cases hv : v = w
  · subst hv; simp
  · rw [Function.update_of_ne hv]; simp [hv]

theorem ne_of_alive (s : AddV D D1 w d) {v : ℕ} (hv : D.Alive v) : v ≠ w := by
  rintro rfl; exact s.new hv

theorem total (s : AddV D D1 w d) (a b : ℕ) : (graph D1).total a b = (graph D).total a b := by
  unfold Graph.total
  rw [s.m, s.m]

theorem total_new (s : AddV D D1 w d) (a : ℕ) : (graph D1).total w a = 0 := by
  rw [s.total]
  unfold Graph.total
  rw [s.dead, s.dead]

theorem good (s : AddV D D1 w d) (h : D.Good) (hr : d.phase.const.InRange) : D1.Good where
  inv := s.inv
  simple u v := by rw [s.total]; exact h.simple u v
  bd b u v hb h1 h2 := by
    rw [s.total] at h1 h2
    by_cases hw : b = w
    · subst hw
      unfold Graph.total at h1
      rw [s.dead, s.dead] at h1
      exact absurd h1 (lt_irrefl _)
    · exact h.bd b u v (by rwa [s.ty_old hw] at hb) h1 h2
  range v e he := by
    rw [s.vert] at he
    by_cases hw : v = w
    · subst hw
      rw [Function.update_self] at he
      injection he with he
      rw [← he]; exact hr
    · rw [Function.update_of_ne hw] at he
      exact h.range v e he

/-- The bit of a new spider is summed over. -/
theorem lin (s : AddV D D1 w d) (h : D.Inv) (hd : d.type ≠ .boundary) (ρ : ℕ → ℝ) (f : (ℕ → Bool) → ℂ) (β : ℕ → Bool) :
    D1.lin ρ f β = D.lin ρ (fun x => f (update x w false) + d.phase.u ρ * f (update x w true)) β := by
  have hwv : w ∉ D.verts := fun hm => s.new (h.mem_verts.1 hm)
  have hwi : w ∉ D.inner := fun hm => hwv (Finset.mem_filter.1 hm).1
  have hin : D1.inner = insert w D.inner := by
    unfold inner
    rw [s.verts, Finset.filter_insert, if_pos (by rw [s.ty_new]; exact hd)]
    congr 1
    apply Finset.filter_congr
    intro v hv
    rw [s.ty_old (s.ne_of_alive (h.mem_verts.1 hv))]
  have hW : ∀ x p, (graph D1).W ρ D1.verts (update x w p) = (if p = true then d.phase.u ρ else 1) * (graph D).W ρ D.verts x := by
    intro x p
    rw [Graph.W_erase ρ (graph_symm s.inv) (update x w p) (v := w) (by rw [s.verts]; exact Finset.mem_insert_self _ _)]
    rw [s.verts, Finset.erase_insert hwv]
    have hv : (graph D1).vf ρ (update x w p) w = if p = true then d.phase.u ρ else 1 := by
      unfold Graph.vf graph
      simp only
      rw [s.vert, Function.update_self]
      simp only [Function.update_self]
      by_cases hp : p = true
      · rw [if_pos ⟨hd, hp⟩, if_pos hp]
      · rw [if_neg (fun hh => hp hh.2), if_neg hp]
    have hp : ∀ a ∈ D.verts, (graph D1).pf (update x w p) w a = 1 := by
      intro a _
      unfold Graph.pf
      rw [s.m, s.m, s.dead, s.dead, pow_zero, pow_zero, one_mul]
    rw [hv, Finset.prod_congr rfl hp, Finset.prod_const_one, mul_one]
    congr 1
    apply Graph.W_congr
    · intro v hv
      show D1.vert v = D.vert v
      rw [s.vert, Function.update_of_ne (s.ne_of_alive (h.mem_verts.1 hv))]
    · intro a _ b _ t
      exact s.m a b t
    · intro v hv
      rw [Function.update_of_ne (s.ne_of_alive (h.mem_verts.1 hv))]
  unfold Diagram.lin
  rw [s.gp, hin, sumOver_insert hwi]
  congr 1
  apply sumOver_congr
  intro x
  rw [hW, hW]
  simp only [if_true, Bool.false_eq_true, if_false]
  ring

end AddV

/-! ### Adding an edge -/

/-- What adding an edge does. -/
structure AddE (D D1 : Diagram) (u v : ℕ) (t : EType) : Prop where
  inv : D1.Inv
  vert : D1.vert = D.vert
  gp : D1.globalPhase = D.globalPhase
  inputs : D1.inputs = D.inputs
  outputs : D1.outputs = D.outputs
  size : D1.size = D.size
  gr : graph D1 = (graph D).setM u v fun s => if s = t then (graph D).m u v s + 1 else (graph D).m u v s

theorem addEdge_addE {D D1 : Diagram} (h : D.Inv) {u v : ℕ} (hu : D.Alive u) (hv : D.Alive v) (huv : u ≠ v) {t : EType}
    (he : D.addEdge u v t = some D1) : AddE D D1 u v t := by
  obtain ⟨D', h1, h2, h3⟩ := addEdge_inv h hu hv huv t
  rw [h1] at he
  injection he with he
  subst he
  have h4 : D' = D.added u v t := h3
  have h5 := graph_added h hu hv huv t
  rw [← h4] at h5
  refine ⟨h2, by rw [h3], by rw [h3], by rw [h3], by rw [h3], by rw [h3], ?_⟩
  rw [h5]
  congr 1
  funext s
  have : (graph D).m u v s = D.mult u v s := if_pos ⟨hu, hv⟩
  rw [this]

theorem addEdge_some {D : Diagram} (h : D.Inv) {u v : ℕ} (hu : D.Alive u) (hv : D.Alive v) (huv : u ≠ v) (t : EType) :
    ∃ D1, D.addEdge u v t = some D1 := by
  obtain ⟨D', h1, _⟩ := addEdge_inv h hu hv huv t
  exact ⟨D', h1⟩

namespace AddE

variable {D D1 : Diagram} {u v : ℕ} {t : EType}

theorem alive (s : AddE D D1 u v t) (w : ℕ) : D1.Alive w ↔ D.Alive w := by
  unfold Alive; rw [s.vert]

theorem ty (s : AddE D D1 u v t) (w : ℕ) : (graph D1).ty w = (graph D).ty w := by
  unfold Graph.ty graph
  simp only
  rw [s.vert]

theorem total (s : AddE D D1 u v t) (a b : ℕ) : (graph D1).total a b =
    if (a = u ∧ b = v) ∨ (a = v ∧ b = u) then (graph D).total u v + 1 else (graph D).total a b := by
  rw [s.gr]
  unfold Graph.total Graph.setM
  simp only
  split_ifs with h
  · cases t <;> simp <;> omega
  · rfl

theorem good (s : AddE D D1 u v t) (h : D.Good) (h0 : (graph D).total u v = 0)
    (hu : (graph D).ty u = .boundary → ∀ a, (graph D).total u a = 0)
    (hv : (graph D).ty v = .boundary → ∀ a, (graph D).total v a = 0) (huv : u ≠ v) : D1.Good where
  inv := s.inv
  simple a b := by
    rw [s.total]
    split_ifs
    · rw [h0]
    · exact h.simple a b
  bd b x y hb h1 h2 := by
    rw [s.ty] at hb
    rw [s.total] at h1 h2
    by_cases hbu : b = u
    · subst hbu
      have hz := hu hb
      rw [hz, hz] at h1 h2
      simp only [true_and, huv, false_and, or_false] at h1 h2
      by_cases hx : x = v
      · by_cases hy : y = v
        · rw [hx, hy]
        · rw [if_neg hy] at h2; exact absurd h2 (lt_irrefl _)
      · rw [if_neg hx] at h1; exact absurd h1 (lt_irrefl _)
    · by_cases hbv : b = v
      · subst hbv
        have hz := hv hb
        rw [hz] at h1 h2
        simp only [hbu, false_and, true_and, false_or] at h1 h2
        by_cases hx : x = u
        · by_cases hy : y = u
          · rw [hx, hy]
          · rw [if_neg hy] at h2; exact absurd h2 (lt_irrefl _)
        · rw [if_neg hx] at h1; exact absurd h1 (lt_irrefl _)
      · simp only [hbu, hbv, false_and, or_false, if_false] at h1 h2
        exact h.bd b x y hb h1 h2
  range w e he := by rw [s.vert] at he; exact h.range w e he

/-- The weight of the edge. -/
theorem lin (s : AddE D D1 u v t) (h : D.Inv) (hu : D.Alive u) (hv : D.Alive v) (huv : u ≠ v) (ρ : ℕ → ℝ)
    (f : (ℕ → Bool) → ℂ) (β : ℕ → Bool) :
    D1.lin ρ f β = D.lin ρ (fun x => ew t ((graph D).ty u) ((graph D).ty v) (x u) (x v) * f x) β := by
  have hverts : D1.verts = D.verts := by
    unfold verts
    rw [s.size]
    apply Finset.filter_congr
    intro w _
    exact s.alive w
  have hin : D1.inner = D.inner := by
    unfold inner
    rw [hverts]
    simp only [s.ty]
  unfold Diagram.lin
  rw [s.gp, hin, hverts]
  congr 1
  apply sumOver_congr
  intro x
  rw [s.gr, Graph.W_setM ρ _ x (h.mem_verts.2 hu) (h.mem_verts.2 hv) huv,
    Graph.W_eq_setM ρ (graph_symm h) x (h.mem_verts.2 hu) (h.mem_verts.2 hv) huv]
  unfold Graph.pf
  cases t
  · simp only [reduceCtorEq, if_true, if_false, pow_succ]; ring
  · simp only [reduceCtorEq, if_true, if_false, pow_succ]; ring

end AddE

end Diagram

/-! ### Diagrams under construction -/

namespace Build

/-- The vertex at the end of a wire. -/
def tip (b : Build) (q : ℕ) : ℕ := b.qs.getD q 0

/-- The end of a wire, with a plain edge to a boundary. -/
def open1 (b : Build) (x : ℕ → Bool) (y : Bits) (q : ℕ) : ℂ :=
  ew .simple ((graph b.D).ty (b.tip q)) .boundary (x (b.tip q)) (y q)

/-- The state of the wires: the linear map of the diagram, were the ends of the wires connected with the outputs. -/
def amp (n : ℕ) (ρ : ℕ → ℝ) (b : Build) (β : ℕ → Bool) : State := fun y =>
  b.D.lin ρ (fun x => ∏ q ∈ Finset.range n, b.open1 x y q) β

/-- What holds throughout. -/
structure WB (n : ℕ) (b : Build) : Prop where
  good : b.D.Good
  len : b.qs.length = n
  alive : ∀ q < n, b.D.Alive (b.tip q)
  inj : ∀ q < n, ∀ r < n, b.tip q = b.tip r → q = r
  tips : ∀ q < n, (graph b.D).ty (b.tip q) = .boundary → ∀ a, (graph b.D).total (b.tip q) a = 0
  inputs : b.D.inputs = List.range n
  outputs : b.D.outputs = (List.range n).map (n + ·)
  out : ∀ i < n, b.D.Alive (n + i) ∧ (graph b.D).ty (n + i) = .boundary ∧ (∀ a, (graph b.D).total (n + i) a = 0) ∧
    ∀ q < n, b.tip q ≠ n + i

theorem tip_get {n : ℕ} {b : Build} (h : b.WB n) {q : ℕ} (hq : q < n) : b.qs[q]? = some (b.tip q) := by
  unfold tip
  rw [List.getD_eq_getElem?_getD, List.getElem?_eq_getElem (by rw [h.len]; exact hq)]
  rfl

theorem lift_get {n : ℕ} {b : Build} (h : b.WB n) {q : ℕ} (hq : q < n) : lift b.qs[q]? = .ok (b.tip q) := by
  rw [tip_get h hq]; rfl

theorem lt_of_lift {n : ℕ} {b : Build} (h : b.WB n) {q v : ℕ} (hv : lift b.qs[q]? = .ok v) : q < n ∧ v = b.tip q := by
  have hq : q < n := by
    by_contra hc
    rw [List.getElem?_eq_none (by rw [h.len]; exact not_lt.1 hc)] at hv
    cases hv
  rw [lift_get h hq] at hv
  injection hv with hv
  exact ⟨hq, hv.symm⟩

theorem tip_set {D : Diagram} {qs : List ℕ} {q w : ℕ} (hq : q < qs.length) (r : ℕ) :
    (⟨D, qs.set q w⟩ : Build).tip r = if r = q then w else qs.getD r 0 := by
  unfold tip
  simp only [List.getD_eq_getElem?_getD, List.getElem?_set]
  by_cases hr : q = r
  · subst hr; simp [hq]
  · rw [if_neg hr, if_neg (Ne.symm hr)]

/-! ### What actions do -/

/-- Whenever the action succeeds, the state of the wires changes by `F`, up to a positive factor. -/
structure Does (n : ℕ) (f : Action) (F : (ℕ → ℝ) → State → State) : Prop where
  hom : ∀ ρ c ψ, F ρ (phase c ψ) = phase c (F ρ ψ)
  step : ∀ b b', b.WB n → f b = .ok b' → b'.WB n ∧ ∃ k : ℝ, 0 < k ∧ ∀ ρ β, b'.amp n ρ β = phase k (F ρ (b.amp n ρ β))

theorem bind_ok {α β : Type} {x : Res α} {f : α → Res β} {y : β} (h : x.bind f = .ok y) : ∃ a, x = .ok a ∧ f a = .ok y := by
  cases x with
  | ok a => exact ⟨a, rfl, h⟩
  | throw => cases h
  | ub => cases h

theorem phase_phase (a c : ℂ) (ψ : State) : phase a (phase c ψ) = phase (a * c) ψ := by
  funext x; unfold phase; ring

theorem phase_one (ψ : State) : phase 1 ψ = ψ := by
  funext x; unfold phase; ring

namespace Does

variable {n : ℕ} {f g : Action} {F G : (ℕ → ℝ) → State → State}

theorem skip : Does n (seq []) fun _ ψ => ψ where
  hom _ _ _ := rfl
  step b b' h e := by
    injection e with e
    subst e
    exact ⟨h, 1, one_pos, fun ρ β => by rw [Complex.ofReal_one, phase_one]⟩

theorem cons (hf : Does n f F) {l : List Action} (hl : Does n (seq l) G) : Does n (seq (f :: l)) fun ρ ψ => G ρ (F ρ ψ) where
  hom ρ c ψ := by rw [hf.hom, hl.hom]
  step b b' h e := by
    obtain ⟨b1, e1, e2⟩ := bind_ok e
    obtain ⟨w1, k1, p1, a1⟩ := hf.step b b1 h e1
    obtain ⟨w2, k2, p2, a2⟩ := hl.step b1 b' w1 e2
    refine ⟨w2, k2 * k1, mul_pos p2 p1, fun ρ β => ?_⟩
    rw [a2, a1, hl.hom, phase_phase, Complex.ofReal_mul]

theorem congr (hf : Does n f F) (h : ∀ ρ ψ, F ρ ψ = G ρ ψ) : Does n f G := by
  have : F = G := funext fun ρ => funext (h ρ)
  exact this ▸ hf

/-- Up to a positive factor. -/
theorem scale (hf : Does n f F) {k : ℝ} (hk : 0 < k) (h : ∀ ρ ψ, F ρ ψ = phase k (G ρ ψ)) : Does n f G where
  hom ρ c ψ := by
    have h1 : phase k (G ρ (phase c ψ)) = phase k (phase c (G ρ ψ)) := by
      rw [← h, hf.hom, h, phase_phase, phase_phase, mul_comm]
    have hk0 : (k : ℂ) ≠ 0 := by exact_mod_cast hk.ne'
    have := congrArg (phase (k : ℂ)⁻¹) h1
    rwa [phase_phase, phase_phase, inv_mul_cancel₀ hk0, phase_one, phase_one] at this
  step b b' hb e := by
    obtain ⟨w1, k1, p1, a1⟩ := hf.step b b' hb e
    refine ⟨w1, k1 * k, mul_pos p1 hk, fun ρ β => ?_⟩
    rw [a1, h, phase_phase, Complex.ofReal_mul]

theorem of_eq (hf : Does n f F) (h : ∀ b b', g b = .ok b' → f b = .ok b') : Does n g F :=
  ⟨hf.hom, fun b b' hb e => hf.step b b' hb (h b b' e)⟩

end Does

end Build

end MQT.ZX
