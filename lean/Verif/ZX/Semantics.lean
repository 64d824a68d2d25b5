/-
The linear maps denoted by ZX diagrams.

Every inner vertex (spider) carries a bit; a Z spider is the sum over its bit of the computational basis vectors
`|b…b⟩`, weighted with `e^{iα}` for `b = 1`, and an X spider the same with the Hadamard basis.  An edge connects the
two bases at its ends: as identity or as Hadamard matrix, up to the factor `√2`, which is left out (`ew_spec`).
A boundary vertex is the computational basis vector of the bit assigned to it.  So `val` is the matrix entry of the
linear map for the given bits of the boundary, up to a positive factor that depends on the numbers of edges only.
-/
import Mathlib.Algebra.BigOperators.Ring.Finset
import Mathlib.Analysis.Real.Sqrt
import Verif.ZX.Graph

set_option autoImplicit false

noncomputable section

open Classical

open Function (update)

namespace MQT.ZX

open Diagram

/-! ### Specification -/

/-- Whether an edge acts as a Hadamard matrix between the bases of its ends. -/
def odd (t : EType) (a b : VType) : Bool := xor (t = .hadamard) (xor (a = .x) (b = .x))

/-- The weight of an edge of type `t` between vertices of types `a`, `b` with bits `p`, `q`. -/
def ew (t : EType) (a b : VType) (p q : Bool) : ℂ :=
  if odd t a b then (if p && q then -1 else 1) else if p = q then 1 else 0

namespace Graph

def ty (G : Graph) (v : ℕ) : VType := ((G.vert v).map VData.type).getD .boundary

/-- The weight of a vertex: its phase, if it is a spider with bit 1. -/
def vf (ρ : ℕ → ℝ) (G : Graph) (x : ℕ → Bool) (v : ℕ) : ℂ :=
  match G.vert v with
  | some d => if d.type ≠ .boundary ∧ x v = true then d.phase.u ρ else 1
  | none => 1

/-- The weight of the edges between two vertices. -/
def pf (G : Graph) (x : ℕ → Bool) (u v : ℕ) : ℂ :=
  ew .simple (G.ty u) (G.ty v) (x u) (x v) ^ G.m u v .simple *
    ew .hadamard (G.ty u) (G.ty v) (x u) (x v) ^ G.m u v .hadamard

/-- The weight of the part of the graph with vertices in `V`, for the bits `x`. -/
def W (ρ : ℕ → ℝ) (V : Finset ℕ) (G : Graph) (x : ℕ → Bool) : ℂ :=
  (∏ v ∈ V, G.vf ρ x v) * ∏ u ∈ V, ∏ v ∈ V, if u < v then G.pf x u v else 1

end Graph

/-- The sum over all bits of the vertices in `L`; the other bits are those of `b`. -/
def sumOver (L : Finset ℕ) (f : (ℕ → Bool) → ℂ) (b : ℕ → Bool) : ℂ :=
  ∑ S ∈ L.powerset, f fun v => if v ∈ L then decide (v ∈ S) else b v

namespace Diagram

/-- The spiders. -/
def inner (D : Diagram) : Finset ℕ := D.verts.filter fun v => (graph D).ty v ≠ .boundary

/-- The matrix entry for the bits `b` of the boundary. -/
def val (ρ : ℕ → ℝ) (D : Diagram) (b : ℕ → Bool) : ℂ :=
  D.globalPhase.u ρ * sumOver D.inner ((graph D).W ρ D.verts) b

/-- The same linear map up to a positive factor: the same inputs and outputs, and proportional matrix entries, for
all values of the variables. -/
def Same (D D' : Diagram) : Prop :=
  D'.inputs = D.inputs ∧ D'.outputs = D.outputs ∧
  ∃ k : ℝ, 0 < k ∧ ∀ ρ b, val ρ D b = k * val ρ D' b

end Diagram

/-! ### Edges and spiders are what they should be -/

/-- The vectors of the basis of a vertex. -/
def basis (a : VType) (p : Bool) (i : Bool) : ℝ :=
  if a = .x then (if i && p then -1 else 1) / √2 else if i = p then 1 else 0

/-- The matrix of an edge. -/
def edgeMat (t : EType) (i j : Bool) : ℝ :=
  if t = .hadamard then (if i && j then -1 else 1) / √2 else if i = j then 1 else 0

/-- The weight of an edge is the matrix of the edge in the bases at its ends, up to `√2`. -/
theorem ew_spec (t : EType) (a b : VType) (p q : Bool) :
    ew t a b p q = ((if odd t a b then √2 else 1) * ∑ i, ∑ j, basis a p i * edgeMat t i j * basis b q j : ℝ) := by
  have h2 : √2 * √2 = (2 : ℝ) := Real.mul_self_sqrt (by norm_num)
  have h0 : √2 ≠ (0 : ℝ) := by positivity
  have h3 : (√2)⁻¹ * (√2)⁻¹ = (1 / 2 : ℝ) := by field_simp; rw [sq, h2]
  have h4 : √2 * (√2)⁻¹ = (1 : ℝ) := by field_simp
  have h5 : √2 * ((√2)⁻¹ * (√2)⁻¹ * (√2)⁻¹) = (1 / 2 : ℝ) := by rw [show √2 * ((√2)⁻¹ * (√2)⁻¹ * (√2)⁻¹) = (√2 * (√2)⁻¹) * ((√2)⁻¹ * (√2)⁻¹) by ring, h3, h4]; norm_num
  unfold ew
  have key : ((if odd t a b then (if p && q then -1 else 1) else if p = q then 1 else 0 : ℝ)) =
      (if odd t a b then √2 else 1) * ∑ i, ∑ j, basis a p i * edgeMat t i j * basis b q j := by
    cases t <;> cases a <;> cases b <;> cases p <;> cases q <;>
      simp [odd, basis, edgeMat] <;> grind
  rw [← key]
  split_ifs <;> simp

/-! ### Weights of edges -/

theorem ew_comm (t : EType) (a b : VType) (p q : Bool) : ew t a b p q = ew t b a q p := by
  unfold ew odd
  rw [Bool.xor_comm (decide (a = .x)), Bool.and_comm p q]
  simp only [eq_comm (a := p) (b := q)]

theorem ew_toggle_odd (t : EType) (a b : VType) : odd t.toggle a b = !odd t a b := by
  cases t <;> simp [odd, EType.toggle]

/-- Summing out a vertex between two edges. -/
theorem ew_sum (t0 t1 : EType) (c a b : VType) (p q : Bool) :
    ew t0 c a false p * ew t1 c b false q + ew t0 c a true p * ew t1 c b true q =
      (if odd t0 c a && odd t1 c b then 2 else 1) * ew (if t0 ≠ t1 then .hadamard else .simple) a b p q := by
  cases t0 <;> cases t1 <;> cases c <;> cases a <;> cases b <;> cases p <;> cases q <;>
    simp [ew, odd] <;> norm_num

namespace Graph

/-! ### Weights of graphs -/

theorem pf_comm {G : Graph} (x : ℕ → Bool) {u v : ℕ} (h : ∀ t, G.m u v t = G.m v u t) : G.pf x u v = G.pf x v u := by
  unfold pf
  rw [h, h, ew_comm .simple, ew_comm .hadamard]

theorem prod_pair_insert (f : ℕ → ℕ → ℂ) (hf : ∀ u v, f u v = f v u) {a : ℕ} {S : Finset ℕ} (ha : a ∉ S) :
    (∏ u ∈ insert a S, ∏ v ∈ insert a S, if u < v then f u v else 1) =
      (∏ w ∈ S, f a w) * ∏ u ∈ S, ∏ v ∈ S, if u < v then f u v else 1 := by
  rw [Finset.prod_insert ha, Finset.prod_insert ha, if_neg (lt_irrefl a), one_mul]
  have : ∀ u ∈ S, (∏ v ∈ insert a S, if u < v then f u v else 1) =
      (if u < a then f a u else 1) * ∏ v ∈ S, if u < v then f u v else 1 := by
    intro u _
    rw [Finset.prod_insert ha, hf]
  rw [Finset.prod_congr rfl this, Finset.prod_mul_distrib, ← mul_assoc, ← Finset.prod_mul_distrib]
  congr 1
  apply Finset.prod_congr rfl
  intro w hw
  have hne : w ≠ a := fun e => ha (e ▸ hw)
  rcases lt_or_gt_of_ne hne with h | h
  · rw [if_neg (by omega), if_pos h, one_mul]
  · rw [if_pos h, if_neg (by omega), mul_one]

/-- Taking a vertex out. -/
theorem W_erase (ρ : ℕ → ℝ) {V : Finset ℕ} {G : Graph} (hs : ∀ u v t, G.m u v t = G.m v u t) (x : ℕ → Bool) {v : ℕ}
    (hv : v ∈ V) : G.W ρ V x = G.vf ρ x v * (∏ w ∈ V.erase v, G.pf x v w) * G.W ρ (V.erase v) x := by
  have hV : V = insert v (V.erase v) := (Finset.insert_erase hv).symm
  have hn : v ∉ V.erase v := Finset.notMem_erase v V
  unfold W
  conv_lhs => rw [hV]
  rw [Finset.prod_insert hn, prod_pair_insert (G.pf x) (fun u w => pf_comm x (hs u w)) hn]
  ring

/-- Graphs that agree on `V`. -/
theorem W_congr (ρ : ℕ → ℝ) {V : Finset ℕ} {G G' : Graph} {x x' : ℕ → Bool} (h1 : ∀ v ∈ V, G.vert v = G'.vert v)
    (h2 : ∀ u ∈ V, ∀ v ∈ V, ∀ t, G.m u v t = G'.m u v t) (h3 : ∀ v ∈ V, x v = x' v) : G.W ρ V x = G'.W ρ V x' := by
  unfold W
  congr 1
  · apply Finset.prod_congr rfl
    intro v hv
    unfold vf
    rw [h1 v hv, h3 v hv]
  · apply Finset.prod_congr rfl
    intro u hu
    apply Finset.prod_congr rfl
    intro v hv
    have : G.pf x u v = G'.pf x' u v := by
      unfold pf ty
      rw [h1 u hu, h1 v hv, h2 u hu v hv, h2 u hu v hv, h3 u hu, h3 v hv]
    rw [this]

theorem prod_pair_single (f g : ℕ → ℕ → ℂ) {V : Finset ℕ} {u v : ℕ} (hu : u ∈ V) (hv : v ∈ V) (huv : u ≠ v) (c : ℂ)
    (hf : ∀ a b, f a b = if (a = u ∧ b = v) ∨ (a = v ∧ b = u) then c * g a b else g a b) :
    (∏ a ∈ V, ∏ b ∈ V, if a < b then f a b else 1) = c * ∏ a ∈ V, ∏ b ∈ V, if a < b then g a b else 1 := by
  have lt : ∀ u v : ℕ, u ∈ V → v ∈ V → u < v →
      (∀ a b, f a b = if (a = u ∧ b = v) ∨ (a = v ∧ b = u) then c * g a b else g a b) →
      (∏ a ∈ V, ∏ b ∈ V, if a < b then f a b else 1) = c * ∏ a ∈ V, ∏ b ∈ V, if a < b then g a b else 1 := by
    intro u v hu hv huv hf
    have : ∀ a ∈ V, ∀ b ∈ V, (if a < b then f a b else 1) =
        (if a = u then (if b = v then c else 1) else 1) * if a < b then g a b else 1 := by
      intro a _ b _
      rw [hf]
      by_cases h1 : a < b
      · by_cases h2 : a = u
        · by_cases h3 : b = v
          · simp [h2, h3, huv]
          · rw [if_pos h1, if_pos h1, if_pos h2, if_neg h3, one_mul, if_neg]
            omega
        · have : ¬ (a = v ∧ b = u) := by omega
          simp [h1, h2, this]
      · simp [h1]
        intro h4 h5; omega
    rw [Finset.prod_congr rfl fun a ha => Finset.prod_congr rfl fun b hb => this a ha b hb]
    rw [Finset.prod_congr rfl fun a _ => Finset.prod_mul_distrib, Finset.prod_mul_distrib]
    congr 1
    rw [Finset.prod_eq_single_of_mem u hu]
    · rw [Finset.prod_eq_single_of_mem v hv]
      · simp
      · intro b _ hb; simp [hb]
    · intro a _ ha; simp [ha]
  rcases lt_or_gt_of_ne huv with h | h
  · exact lt u v hu hv h hf
  · exact lt v u hv hu h fun a b => by rw [hf]; congr 1; simp only [eq_iff_iff]; tauto

/-- The edges between two vertices contribute a factor. -/
theorem W_setM (ρ : ℕ → ℝ) {V : Finset ℕ} (G : Graph) (x : ℕ → Bool) {u v : ℕ} (hu : u ∈ V) (hv : v ∈ V) (huv : u ≠ v)
    (f : EType → ℕ) : (G.setM u v f).W ρ V x =
      (ew .simple (G.ty u) (G.ty v) (x u) (x v) ^ f .simple * ew .hadamard (G.ty u) (G.ty v) (x u) (x v) ^ f .hadamard) *
        (G.setM u v fun _ => 0).W ρ V x := by
  unfold W
  rw [prod_pair_single ((G.setM u v f).pf x) ((G.setM u v fun _ => 0).pf x) hu hv huv
    (ew .simple (G.ty u) (G.ty v) (x u) (x v) ^ f .simple * ew .hadamard (G.ty u) (G.ty v) (x u) (x v) ^ f .hadamard)]
  · have : ∀ g w, (G.setM u v g).vf ρ x w = G.vf ρ x w := fun _ _ => rfl
    simp only [this]
    ring
  · intro a b
    have hty : ∀ g w, (G.setM u v g).ty w = G.ty w := fun _ _ => rfl
    unfold pf
    simp only [hty]
    unfold setM
    simp only
    split_ifs with h
    · rcases h with ⟨rfl, rfl⟩ | ⟨rfl, rfl⟩
      · simp
      · rw [ew_comm .simple, ew_comm .hadamard]; simp
    · rfl

theorem setM_self {G : Graph} (hs : ∀ u v t, G.m u v t = G.m v u t) (u v : ℕ) : G.setM u v (G.m u v) = G := by
  unfold setM
  cases G with
  | mk vert m =>
    simp only [Graph.mk.injEq, true_and]
    funext a b
    split_ifs with h
    · rcases h with ⟨rfl, rfl⟩ | ⟨rfl, rfl⟩
      · rfl
      · funext t; exact hs _ _ t
    · rfl

theorem W_eq_setM (ρ : ℕ → ℝ) {V : Finset ℕ} {G : Graph} (hs : ∀ u v t, G.m u v t = G.m v u t) (x : ℕ → Bool) {u v : ℕ}
    (hu : u ∈ V) (hv : v ∈ V) (huv : u ≠ v) : G.W ρ V x = G.pf x u v * (G.setM u v fun _ => 0).W ρ V x := by
  conv_lhs => rw [← setM_self hs u v]
  rw [W_setM ρ G x hu hv huv]
  rfl

theorem addPhase_ty (G : Graph) (v w : ℕ) (p : Phase) : (G.addPhase v p).ty w = G.ty w := by
  unfold ty addPhase
  simp only
  by_cases h : w = v
  · subst h
    rw [Function.update_self]
    cases G.vert w <;> rfl
  · rw [Function.update_of_ne h]

theorem addPhase_vf (ρ : ℕ → ℝ) (G : Graph) (x : ℕ → Bool) (v w : ℕ) (p : Phase) (hv : G.ty v ≠ .boundary) :
    (G.addPhase v p).vf ρ x w = G.vf ρ x w * if w = v then (if x v = true then p.u ρ else 1) else 1 := by
  unfold vf addPhase
  simp only
  by_cases h : w = v
  · subst h
    rw [Function.update_self, if_pos rfl]
    unfold ty at hv
    cases hd : G.vert w with
    | none => rw [hd] at hv; exact absurd rfl hv
    | some d =>
      rw [hd] at hv
      have hv' : d.type ≠ .boundary := hv
      simp only [Option.map_some]
      by_cases hx : x w = true
      · rw [if_pos ⟨hv', hx⟩, if_pos ⟨hv', hx⟩, if_pos hx, Phase.u_add]
      · rw [if_neg (fun h => hx h.2), if_neg (fun h => hx h.2), if_neg hx, mul_one]
  · rw [Function.update_of_ne h, if_neg h, mul_one]

/-- Adding to the phase of a spider. -/
theorem W_addPhase (ρ : ℕ → ℝ) {V : Finset ℕ} (G : Graph) (x : ℕ → Bool) {v : ℕ} (hv : G.ty v ≠ .boundary) (p : Phase) :
    (G.addPhase v p).W ρ V x = G.W ρ V x * if v ∈ V then (if x v = true then p.u ρ else 1) else 1 := by
  have hpf : ∀ a b, (G.addPhase v p).pf x a b = G.pf x a b := by
    intro a b
    unfold pf
    rw [addPhase_ty, addPhase_ty]
    rfl
  unfold W
  simp only [hpf]
  rw [Finset.prod_congr rfl fun w _ => addPhase_vf ρ G x v w p hv, Finset.prod_mul_distrib, Finset.prod_ite_eq' V v]
  ring

/-- Merging an edge with a parallel one. -/
theorem W_merge (ρ : ℕ → ℝ) {V : Finset ℕ} {G : Graph} (hs : ∀ u v t, G.m u v t = G.m v u t) (x : ℕ → Bool) {u v : ℕ}
    (hu : u ∈ V) (hv : v ∈ V) (huv : u ≠ v) (h1 : G.total u v = 1) (bu : G.ty u ≠ .boundary) (bv : G.ty v ≠ .boundary)
    (t : EType) : (G.merge u v (G.ty u) (G.ty v) t).W ρ V x = G.W ρ V x * ew t (G.ty u) (G.ty v) (x u) (x v) := by
  unfold total at h1
  have hsp : ∀ f, (G.setM u v f).ty u = G.ty u := fun _ => rfl
  have hm : G.m u v t = 1 ∧ G.m u v t.toggle = 0 ∨ G.m u v t = 0 ∧ G.m u v t.toggle = 1 := by
    cases t <;> simp only [EType.toggle] <;> omega
  have heq : Equates (G.ty u) (G.ty v) t ↔ odd t (G.ty u) (G.ty v) = false := by
    unfold Equates odd
    cases t <;> cases hu : G.ty u <;> cases hv : G.ty v <;> simp_all
  unfold merge
  rcases hm with ⟨m1, m2⟩ | ⟨m1, m2⟩
  · rw [if_pos (by omega)]
    have hW := W_eq_setM ρ hs x hu hv huv
    have hpf : G.pf x u v = ew t (G.ty u) (G.ty v) (x u) (x v) := by
      unfold pf
      cases t <;> simp only [EType.toggle] at m2 <;> rw [m1, m2] <;> simp
    split_ifs with he
    · rw [hW, hpf]
      rw [heq] at he
      unfold ew
      rw [he]
      by_cases hx : x u = x v <;> simp [hx]
    · rw [hW, hpf]
      rw [heq] at he
      unfold ew
      rw [if_pos (by simpa using he)]
      by_cases hx : (x u && x v) = true <;> simp [hx]
  · rw [if_neg (by omega)]
    have hW := W_eq_setM ρ hs x hu hv huv
    have hpf : G.pf x u v = ew t.toggle (G.ty u) (G.ty v) (x u) (x v) := by
      unfold pf
      cases t <;> simp only [EType.toggle] at m2 ⊢ <;> rw [m1, m2] <;> simp
    split_ifs with he
    · rw [W_addPhase ρ _ x (by rw [hsp]; exact bu), if_pos hu, W_setM ρ G x hu hv huv, hW, hpf]
      have hp : piPhase.u ρ = -1 := Phase.u_pi ρ
      rw [hp]
      have e1 : ew .simple (G.ty u) (G.ty v) (x u) (x v) ^ (if EType.simple = t then 1 else 0) *
          ew .hadamard (G.ty u) (G.ty v) (x u) (x v) ^ (if EType.hadamard = t then 1 else 0) =
          ew t (G.ty u) (G.ty v) (x u) (x v) := by cases t <;> simp
      rw [e1]
      have e2 : ew t (G.ty u) (G.ty v) (x u) (x v) * (if x u = true then -1 else 1) =
          ew t.toggle (G.ty u) (G.ty v) (x u) (x v) * ew t (G.ty u) (G.ty v) (x u) (x v) := by
        rw [heq] at he
        unfold ew
        rw [ew_toggle_odd, he]
        cases x u <;> cases x v <;> simp
      rw [mul_right_comm, e2]; ring
    · rw [W_addPhase ρ _ x bu, if_pos hu, hW, hpf]
      have hp : piPhase.u ρ = -1 := Phase.u_pi ρ
      rw [hp]
      have e2 : ew t.toggle (G.ty u) (G.ty v) (x u) (x v) * (if x u = true then -1 else 1) =
          ew t.toggle (G.ty u) (G.ty v) (x u) (x v) * ew t (G.ty u) (G.ty v) (x u) (x v) := by
        rw [heq, Bool.not_eq_false] at he
        unfold ew
        rw [ew_toggle_odd, he]
        cases x u <;> cases x v <;> simp
      rw [mul_right_comm, e2]; ring

end Graph

/-! ### Sums over bits -/

theorem sumOver_empty (f : (ℕ → Bool) → ℂ) (b : ℕ → Bool) : sumOver ∅ f b = f b := by
  unfold sumOver
  simp

theorem sumOver_insert {L : Finset ℕ} {v : ℕ} (hv : v ∉ L) (f : (ℕ → Bool) → ℂ) (b : ℕ → Bool) :
    sumOver (insert v L) f b = sumOver L (fun x => f (update x v false) + f (update x v true)) b := by
  unfold sumOver
  rw [Finset.sum_powerset_insert hv, ← Finset.sum_add_distrib]
  apply Finset.sum_congr rfl
  intro S hS
  have hvS : v ∉ S := fun h => hv (Finset.mem_powerset.1 hS h)
  congr 1
  · congr 1
    funext w
    by_cases hw : w = v
    · subst hw; simp [hvS]
    · rw [Function.update_of_ne hw]; simp [hw]
  · congr 1
    funext w
    by_cases hw : w = v
    · subst hw; simp
    · rw [Function.update_of_ne hw]; simp [hw]

theorem sumOver_congr {L : Finset ℕ} {f g : (ℕ → Bool) → ℂ} (h : ∀ x, f x = g x) (b : ℕ → Bool) :
    sumOver L f b = sumOver L g b := by
  rw [show f = g from funext h]

theorem sumOver_mul (L : Finset ℕ) (f : (ℕ → Bool) → ℂ) (c : ℂ) (b : ℕ → Bool) :
    sumOver L (fun x => c * f x) b = c * sumOver L f b := by
  unfold sumOver
  rw [Finset.mul_sum]

end MQT.ZX
