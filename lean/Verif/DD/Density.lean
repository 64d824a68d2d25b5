/-
Density-matrix decision diagrams.

Sources in /repo:
  include/mqt-core/dd/Node.hpp 111-195, src/dd/Node.cpp 21-104   the flags of density-matrix nodes
  include/mqt-core/dd/Package.hpp 762-849                        `add2` on them

A density-matrix DD stores, for a Hermitian matrix, the same edge as second and third successor.  When the third is read,
its weight and everything below is conjugated and transposed (`alignDensityNodeNode`); below the second successor nodes
are those of an ordinary matrix DD.  The model keeps the stored tree, so that `add2` and `makeDDNode` are those of matrix
DDs, and reads it in one of two ways: `mval` below a second successor and `hval` elsewhere.  The temporary flags on
pointers, with which the code remembers how to read a node, are not modelled.
-/
import Verif.DD.Trace

set_option autoImplicit false

noncomputable section

open Classical
open Function (update)
open Complex (normSq)
open scoped ComplexConjugate

namespace MQT.DD

open MQT.IR (Bits State)

/-- Entry in row `x` and column `y` of the `2^n × 2^n` matrix represented by a density-matrix node. -/
def hval : ℕ → MNode → Bits → Bits → ℂ
  | 0, _, _, _ => 1
  | n + 1, p, x, y =>
    if x n = y n then (expand n p (x n, y n)).w * hval n (expand n p (x n, y n)).p x y
    else if x n = false then (expand n p (false, true)).mat n x y
    else conj ((expand n p (true, false)).mat n y x)

/-- The matrix represented by a density-matrix DD on `n` qubits. -/
def Edge.dens (e : MEdge) (n : ℕ) (x y : Bits) : ℂ := e.w * hval n e.p x y

/-- A matrix that is a sum of projections on (not normalised) states: every positive semidefinite matrix is one. -/
def Mix (H : Bits → Bits → ℂ) : Prop :=
  ∃ (s : ℕ) (f : Fin s → Bits → ℂ), ∀ x y, H x y = ∑ k, f k x * conj (f k y)

/-- A real number that is not negative. -/
def Nonneg (z : ℂ) : Prop := ∃ r : ℝ, 0 ≤ r ∧ z = r

/-- The stored form of a Hermitian matrix: the same edge twice, and weights on the diagonal that are not negative. -/
def HShape : MNode → Prop
  | .term => True
  | .node _ w c => w (false, true) = w (true, false) ∧ c (false, true) = c (true, false) ∧
      (∀ b, Nonneg (w (b, b))) ∧ ∀ b, HShape (c (b, b))

/-- A density-matrix edge on `n` qubits. -/
structure HOk (n : ℕ) (e : MEdge) : Prop where
  can : MCan n e.p
  shape : HShape e.p
  real : Nonneg e.w

/-! ### Mixtures -/

theorem Nonneg.mul {a b : ℂ} (ha : Nonneg a) (hb : Nonneg b) : Nonneg (a * b) := by
  obtain ⟨r, hr, rfl⟩ := ha
  obtain ⟨s, hs, rfl⟩ := hb
  exact ⟨r * s, mul_nonneg hr hs, by push_cast; rfl⟩

theorem Nonneg.add {a b : ℂ} (ha : Nonneg a) (hb : Nonneg b) : Nonneg (a + b) := by
  obtain ⟨r, hr, rfl⟩ := ha
  obtain ⟨s, hs, rfl⟩ := hb
  exact ⟨r + s, add_nonneg hr hs, by push_cast; rfl⟩

theorem Nonneg.zero : Nonneg 0 := ⟨0, le_rfl, by simp⟩
theorem Nonneg.one : Nonneg 1 := ⟨1, zero_le_one, by simp⟩
theorem Nonneg.of {r : ℝ} (h : 0 ≤ r) : Nonneg (r : ℂ) := ⟨r, h, rfl⟩

theorem Nonneg.div {a b : ℂ} (ha : Nonneg a) (hb : Nonneg b) : Nonneg (a / b) := by
  obtain ⟨r, hr, rfl⟩ := ha
  obtain ⟨s, hs, rfl⟩ := hb
  exact ⟨r / s, div_nonneg hr hs, by push_cast; rfl⟩

theorem Nonneg.conj {a : ℂ} (ha : Nonneg a) : conj a = a := by
  obtain ⟨r, hr, rfl⟩ := ha
  exact Complex.conj_ofReal r

theorem Mix.herm {H : Bits → Bits → ℂ} (h : Mix H) (x y : Bits) : conj (H x y) = H y x := by
  obtain ⟨s, f, hf⟩ := h
  rw [hf, hf, map_sum]
  refine Finset.sum_congr rfl fun k _ => ?_
  rw [map_mul, Complex.conj_conj, mul_comm]

theorem Mix.diag {H : Bits → Bits → ℂ} (h : Mix H) (x : Bits) : Nonneg (H x x) := by
  obtain ⟨s, f, hf⟩ := h
  refine ⟨∑ k, normSq (f k x), Finset.sum_nonneg fun k _ => Complex.normSq_nonneg _, ?_⟩
  rw [hf]
  push_cast
  exact Finset.sum_congr rfl fun k _ => Complex.mul_conj _

/-- The inequality of Cauchy and Schwarz. -/
theorem Mix.cauchy {H : Bits → Bits → ℂ} (h : Mix H) (x y : Bits) : normSq (H x y) ≤ (H x x).re * (H y y).re := by
  obtain ⟨s, f, hf⟩ := h
  have hd : ∀ z, (H z z).re = ∑ k, ‖f k z‖ ^ 2 := by
    intro z
    rw [hf, Complex.re_sum]
    refine Finset.sum_congr rfl fun k _ => ?_
    rw [Complex.mul_conj, Complex.ofReal_re, Complex.normSq_eq_norm_sq]
  have h1 : ‖H x y‖ ≤ ∑ k, ‖f k x‖ * ‖f k y‖ := by
    rw [hf]
    refine (norm_sum_le _ _).trans (le_of_eq ?_)
    refine Finset.sum_congr rfl fun k _ => ?_
    rw [norm_mul, Complex.norm_conj]
  rw [hd, hd, Complex.normSq_eq_norm_sq]
  refine le_trans (pow_le_pow_left₀ (norm_nonneg _) h1 2) ?_
  exact Finset.sum_mul_sq_le_sq_mul_sq _ _ _

theorem Mix.add {H G : Bits → Bits → ℂ} (h : Mix H) (g : Mix G) : Mix fun x y => H x y + G x y := by
  obtain ⟨s, f, hf⟩ := h
  obtain ⟨t, e, he⟩ := g
  refine ⟨s + t, Fin.append f e, fun x y => ?_⟩
  show H x y + G x y = _
  rw [hf, he, Fin.sum_univ_add]
  simp

theorem Mix.map {H : Bits → Bits → ℂ} (h : Mix H) (A : (Bits → ℂ) → Bits → ℂ) {G : Bits → Bits → ℂ}
    (hG : ∀ s (f : Fin s → Bits → ℂ), (∀ x y, H x y = ∑ k, f k x * conj (f k y)) → ∀ x y,
      G x y = ∑ k, A (f k) x * conj (A (f k) y)) : Mix G := by
  obtain ⟨s, f, hf⟩ := h
  exact ⟨s, fun k => A (f k), hG s f hf⟩

theorem Mix.smul {H : Bits → Bits → ℂ} (h : Mix H) {z : ℂ} (hz : Nonneg z) : Mix fun x y => z * H x y := by
  obtain ⟨r, hr, rfl⟩ := hz
  refine h.map (fun f x => ((√r : ℝ) : ℂ) * f x) fun s f hf x y => ?_
  rw [hf, Finset.mul_sum]
  refine Finset.sum_congr rfl fun k _ => ?_
  rw [map_mul, Complex.conj_ofReal]
  have : ((√r : ℝ) : ℂ) * ((√r : ℝ) : ℂ) = r := by rw [← Complex.ofReal_mul, Real.mul_self_sqrt hr]
  linear_combination (-(f k x * (starRingEnd ℂ) (f k y))) * this

/-- Reading at other indices. -/
theorem Mix.comp {H : Bits → Bits → ℂ} (h : Mix H) (g : Bits → Bits) : Mix fun x y => H (g x) (g y) :=
  h.map (fun f x => f (g x)) fun _ _ hf _ _ => hf _ _

theorem Mix.zero : Mix fun _ _ => 0 := ⟨0, fun _ _ => 0, fun _ _ => by simp⟩

theorem Mix.congr {H G : Bits → Bits → ℂ} (h : Mix H) (e : ∀ x y, G x y = H x y) : Mix G := by
  obtain ⟨s, f, hf⟩ := h
  exact ⟨s, f, fun x y => by rw [e, hf]⟩

/-! ### Sizes of the entries -/

theorem expand_norm {n : ℕ} {p : MNode} (h : MCan (n + 1) p) (b : RC) : ‖(expand n p b).w‖ ≤ 1 := by
  cases p with
  | term =>
    unfold expand
    split_ifs <;> simp
  | node v w c =>
    unfold expand
    simp only
    split_ifs
    · have := (mtop_one_max h.2.1).2 b
      rw [Complex.normSq_eq_norm_sq] at this
      nlinarith [norm_nonneg (w b)]
    · simp
    · simp

theorem expand_can {n : ℕ} {p : MNode} (h : MCan (n + 1) p) (b : RC) : MCan n (expand n p b).p := by
  have := h.block b
  by_cases h0 : (expand n p b).w = 0
  · rw [this.1 h0]
    trivial
  · exact this.2 h0

theorem mval_norm : ∀ (n : ℕ) (p : MNode), MCan n p → ∀ x y, ‖mval n p x y‖ ≤ 1
  | 0, _, _, _, _ => by simp [mval]
  | n + 1, p, h, x, y => by
    rw [mval, norm_mul]
    exact mul_le_one₀ (expand_norm h _) (norm_nonneg _) (mval_norm n _ (expand_can h _) x y)

theorem hval_norm : ∀ (n : ℕ) (p : MNode), MCan n p → ∀ x y, ‖hval n p x y‖ ≤ 1
  | 0, _, _, _, _ => by simp [hval]
  | n + 1, p, h, x, y => by
    rw [hval]
    split_ifs
    · rw [norm_mul]
      exact mul_le_one₀ (expand_norm h _) (norm_nonneg _) (hval_norm n _ (expand_can h _) x y)
    · rw [Edge.mat, norm_mul]
      exact mul_le_one₀ (expand_norm h _) (norm_nonneg _) (mval_norm n _ (expand_can h _) x y)
    · rw [Complex.norm_conj, Edge.mat, norm_mul]
      exact mul_le_one₀ (expand_norm h _) (norm_nonneg _) (mval_norm n _ (expand_can h _) y x)

theorem expand_one {n : ℕ} {p : MNode} (h : MCan (n + 1) p) : ∃ b, (expand n p b).w = 1 := by
  cases p with
  | term => exact ⟨(false, false), by simp [expand]⟩
  | node v w c =>
    by_cases hv : v = n
    · obtain ⟨⟨m, hm⟩, -⟩ := mtop_one_max h.2.1
      exact ⟨m, by simp [expand, hv, hm]⟩
    · exact ⟨(false, false), by simp [expand, hv]⟩

/-- Some entry is 1. -/
theorem mval_peak : ∀ (n : ℕ) (p : MNode), MCan n p → ∃ x y, mval n p x y = 1
  | 0, _, _ => ⟨fun _ => false, fun _ => false, rfl⟩
  | n + 1, p, h => by
    obtain ⟨b, hb⟩ := expand_one h
    obtain ⟨x, y, hxy⟩ := mval_peak n _ (expand_can h b)
    refine ⟨update x n b.1, update y n b.2, ?_⟩
    rw [mval]
    simp only [Function.update_self]
    rw [hb, one_mul, ← hxy]
    exact mval_congr n _ (fun q hq => Function.update_of_ne (by omega) _ _)
      (fun q hq => Function.update_of_ne (by omega) _ _)

theorem hval_congr : ∀ (n : ℕ) (p : MNode) {x y x' y' : Bits}, (∀ q < n, x q = x' q) → (∀ q < n, y q = y' q) →
    hval n p x y = hval n p x' y'
  | 0, _, _, _, _, _, _, _ => rfl
  | n + 1, p, x, y, x', y', hx, hy => by
    have e := fun p => mval_congr n p (fun q hq => hx q (by omega)) (fun q hq => hy q (by omega))
    have e' := fun p => mval_congr n p (fun q hq => hy q (by omega)) (fun q hq => hx q (by omega))
    rw [hval, hval, hx n (by omega), hy n (by omega),
      hval_congr n _ (fun q hq => hx q (by omega)) (fun q hq => hy q (by omega))]
    simp only [Edge.mat, e, e']

/-! ### Node creation -/

/-- The matrix with four blocks, given by density-matrix edges on the diagonal and the matrix edge `e (false, true)`. -/
def quad (n : ℕ) (e : RC → MEdge) (x y : Bits) : ℂ :=
  if x n = y n then (e (x n, y n)).dens n x y
  else if x n = false then (e (false, true)).mat n x y
  else conj ((e (true, false)).mat n y x)

/-- Four successors of a density-matrix node. -/
structure QuadOk (n : ℕ) (e : RC → MEdge) : Prop where
  can : ∀ b, MCan n (e b).p
  off : e (false, true) = e (true, false)
  diag : ∀ b, HOk n (e (b, b))

theorem dens_succ (e : MEdge) (n : ℕ) (x y : Bits) :
    e.dens (n + 1) x y = e.w * quad n (expand n e.p) x y := by
  rw [Edge.dens, hval, quad]
  rfl

theorem marg_off {w : RC → ℂ} (h : w (false, true) = w (true, false)) {m : RC} (hm : marg w = some m) (ho : m.1 ≠ m.2) :
    w (false, false) = 0 ∨ normSq (w (false, false)) < normSq (w (false, true)) := by
  by_contra hc
  push Not at hc
  obtain ⟨h0, h1⟩ := hc
  unfold marg rcs at hm
  simp only [List.foldl] at hm
  have e1 : margStep w none (false, false) = some (false, false) := by simp [margStep, h0]
  have e2 : margStep w (some (false, false)) (false, true) = some (false, false) := by
    unfold margStep
    split_ifs
    · rfl
    · simp only
      rw [if_neg (by linarith)]
  have e3 : margStep w (some (false, false)) (true, false) = some (false, false) := by
    unfold margStep
    split_ifs
    · rfl
    · simp only
      rw [if_neg (by rw [← h]; linarith)]
  rw [e1, e2, e3] at hm
  unfold margStep at hm
  split_ifs at hm
  · cases hm; exact ho rfl
  · simp only at hm
    split_ifs at hm
    · cases hm; exact ho rfl
    · cases hm; exact ho rfl

/-- The weight taken out of a node of a positive semidefinite matrix is not negative. -/
theorem quad_top {n : ℕ} {e : RC → MEdge} (h : QuadOk n e) (hm : Mix (quad n e)) : Nonneg (mtop fun b => (e b).w) := by
  unfold mtop
  cases hg : marg (fun b => (e b).w) with
  | none => exact Nonneg.zero
  | some m =>
    simp only
    by_cases ho : m.1 = m.2
    · obtain ⟨m1, m2⟩ := m
      simp only at ho
      subst ho
      exact (h.diag m1).real
    · exfalso
      obtain ⟨hne, hmax⟩ := marg_some hg
      change (e m).w ≠ 0 at hne
      change ∀ b, normSq (e b).w ≤ normSq (e m).w at hmax
      have hoff := marg_off (w := fun b => (e b).w) (by simp only [h.off]) hg ho
      have hw : (e m).w = (e (false, true)).w := by
        obtain ⟨m1, m2⟩ := m
        cases m1 <;> cases m2 <;> first | exact absurd rfl ho | rw [h.off] | rfl
      rw [hw] at hne hmax
      obtain ⟨x, y, hxy⟩ := mval_peak n _ (h.can (false, true))
      have hc := hm.cauchy (update x n false) (update y n true)
      have e1 : quad n e (update x n false) (update y n true) = (e (false, true)).w := by
        rw [quad]
        simp only [Function.update_self, Bool.false_eq_true, if_false, if_true]
        rw [Edge.mat, mval_congr n _ (x' := x) (y' := y) (fun q hq => Function.update_of_ne (by omega) _ _)
          (fun q hq => Function.update_of_ne (by omega) _ _), hxy, mul_one]
      have e2 : ∀ z : Bits, ∀ b, quad n e (update z n b) (update z n b) = (e (b, b)).dens n (update z n b) (update z n b) := by
        intro z b
        rw [quad]
        simp only [Function.update_self, if_true]
      have e3 : ∀ b z, ((e (b, b)).dens n z z).re ≤ ‖(e (b, b)).w‖ := by
        intro b z
        refine (Complex.re_le_norm _).trans ?_
        rw [Edge.dens, norm_mul]
        exact mul_le_of_le_one_right (norm_nonneg _) (hval_norm n _ (h.can _) _ _)
      have e4 : ∀ z, 0 ≤ (quad n e z z).re := by
        intro z
        obtain ⟨r, hr, e⟩ := hm.diag z
        rw [e]
        exact hr
      rw [e1] at hc
      have h1 := e4 (update x n false)
      have h2 := e4 (update y n true)
      have h3 := e3 false (update x n false)
      have h4 := e3 true (update y n true)
      rw [← e2 x false] at h3
      rw [← e2 y true] at h4
      have hb := hmax (true, true)
      simp only [Complex.normSq_eq_norm_sq] at hc hb hoff
      have hp : 0 < ‖(e (false, true)).w‖ := norm_pos_iff.2 hne
      have h5 : ‖(e (true, true)).w‖ ≤ ‖(e (false, true)).w‖ := by
        by_contra hcon
        push Not at hcon
        nlinarith
      have h6 : ‖(e (false, false)).w‖ < ‖(e (false, true)).w‖ := by
        rcases hoff with h0 | h0
        · rw [h0, norm_zero]; exact hp
        · by_contra hcon
          push Not at hcon
          nlinarith
      nlinarith [norm_nonneg (e (false, false)).w, norm_nonneg (e (true, true)).w, mul_le_mul h3 h4 h2 (norm_nonneg _)]

theorem mNormalize_dens (n : ℕ) (e : RC → MEdge) (hr : Nonneg (mtop fun b => (e b).w)) (x y : Bits) :
    (mNormalize n e).dens (n + 1) x y = quad n e x y := by
  rw [mNormalize_eq]
  split_ifs with h
  · have : ∀ b, (e b).w = 0 := (mtop_eq_zero _).1 h
    simp [Edge.dens, quad, Edge.mat, this]
  · rw [dens_succ]
    have hex : ∀ b, expand n (.node n (fun b => (e b).w / mtop fun b => (e b).w)
        (fun b => if (e b).w = 0 then Node.term else (e b).p)) b =
        ⟨if (e b).w = 0 then Node.term else (e b).p, (e b).w / mtop fun b => (e b).w⟩ := fun b => by simp [expand]
    have key : ∀ b x y, (mtop fun b => (e b).w) * (expand n (.node n (fun b => (e b).w / mtop fun b => (e b).w)
        (fun b => if (e b).w = 0 then Node.term else (e b).p)) b).mat n x y = (e b).mat n x y := by
      intro b x y
      rw [hex, Edge.mat, Edge.mat]
      simp only
      by_cases h0 : (e b).w = 0
      · simp [h0]
      · rw [if_neg h0]; field_simp
    have key' : ∀ b x y, (mtop fun b => (e b).w) * (expand n (.node n (fun b => (e b).w / mtop fun b => (e b).w)
        (fun b => if (e b).w = 0 then Node.term else (e b).p)) b).dens n x y = (e b).dens n x y := by
      intro b x y
      rw [hex, Edge.dens, Edge.dens]
      simp only
      by_cases h0 : (e b).w = 0
      · simp [h0]
      · rw [if_neg h0]; field_simp
    simp only [quad]
    split_ifs
    · exact key' _ _ _
    · exact key _ _ _
    · rw [← key (true, false), map_mul, hr.conj]

theorem skipId_dens {n : ℕ} {r : MEdge}
    (hr : ∀ v w c, r.p = .node v w c → v = n ∧ ∀ b, w b ≠ 0 → MCan n (c b)) (x y : Bits) :
    (skipId r).dens (n + 1) x y = r.dens (n + 1) x y := by
  unfold skipId
  cases hp : r.p with
  | term => rfl
  | node v w c =>
    simp only
    split_ifs with hid
    · obtain ⟨hv, hc⟩ := hr v w c hp
      subst hv
      have hcan : MCan v (c (false, false)) := hc _ (by rw [hid.2.1]; exact one_ne_zero)
      rw [dens_succ, dens_succ, hp]
      congr 1
      have e : ∀ b, expand v (c (false, false)) b = expand v (.node v w c) b ∨
          (expand v (c (false, false)) b).w = 0 ∧ (expand v (.node v w c) b).w = 0 := by
        intro b
        rw [expand_skip hcan le_rfl]
        simp only [expand, if_true]
        obtain ⟨b1, b2⟩ := b
        have := hid.w_eq (b1, b2)
        cases b1 <;> cases b2 <;> simp_all [hid.1]
      have e1 : ∀ b x y, (expand v (c (false, false)) b).mat v x y = (expand v (.node v w c) b).mat v x y := by
        intro b x y
        rcases e b with h | ⟨h1, h2⟩
        · rw [h]
        · rw [Edge.mat, Edge.mat, h1, h2]; simp
      have e2 : ∀ b x y, (expand v (c (false, false)) b).dens v x y = (expand v (.node v w c) b).dens v x y := by
        intro b x y
        rcases e b with h | ⟨h1, h2⟩
        · rw [h]
        · rw [Edge.dens, Edge.dens, h1, h2]; simp
      simp only [quad, e1, e2]
    · rfl

/-- `makeDDNode` on the successors of a density-matrix node. -/
theorem makeM_quad {n : ℕ} {e : RC → MEdge} (h : QuadOk n e) (hm : Mix (quad n e)) :
    HOk (n + 1) (makeM n e) ∧ ∀ x y, (makeM n e).dens (n + 1) x y = quad n e x y := by
  have hr := quad_top h hm
  have hcan := makeM_can (e := e) fun b _ => h.can b
  refine ⟨⟨?_, ?_, ?_⟩, fun x y => ?_⟩
  · by_cases h0 : (makeM n e).w = 0
    · rw [hcan.1 h0]; trivial
    · exact hcan.2 h0
  · unfold makeM
    rw [mNormalize_eq]
    split_ifs with h0
    · trivial
    · have hs : HShape (.node n (fun b => (e b).w / mtop fun b => (e b).w)
          (fun b => if (e b).w = 0 then Node.term else (e b).p)) := by
        refine ⟨by simp only [h.off], by simp only [h.off], fun b => (h.diag b).real.div hr, fun b => ?_⟩
        simp only
        split_ifs
        · trivial
        · exact (h.diag b).shape
      unfold skipId
      simp only
      by_cases hid : IdLike (fun b => (e b).w / mtop fun b => (e b).w)
          (fun b => if (e b).w = 0 then Node.term else (e b).p)
      · rw [if_pos hid]
        exact hs.2.2.2 false
      · rw [if_neg hid]
        exact hs
  · unfold makeM
    rw [mNormalize_eq]
    split_ifs with h0
    · exact Nonneg.zero
    · unfold skipId
      simp only
      by_cases hid : IdLike (fun b => (e b).w / mtop fun b => (e b).w)
          (fun b => if (e b).w = 0 then Node.term else (e b).p)
      · rw [if_pos hid]
        exact hr
      · rw [if_neg hid]
        exact hr
  · unfold makeM
    rw [skipId_dens, mNormalize_dens n e hr]
    intro v w c hp
    rw [mNormalize_eq] at hp
    split_ifs at hp with h0
    · cases hp
    · simp only [Node.node.injEq] at hp
      obtain ⟨rfl, rfl, rfl⟩ := hp
      refine ⟨rfl, fun b hb => ?_⟩
      simp only
      split_ifs
      · trivial
      · exact h.can b

/-! ### Blocks -/

theorem HShape.expand {p : MNode} (h : HShape p) (n : ℕ) :
    expand n p (false, true) = expand n p (true, false) ∧ ∀ b, HShape (expand n p (b, b)).p ∧ Nonneg (expand n p (b, b)).w := by
  cases p with
  | term => exact ⟨by simp [DD.expand], fun b => by simp [DD.expand, HShape, Nonneg.one]⟩
  | node v w c =>
    obtain ⟨h1, h2, h3, h4⟩ := h
    unfold DD.expand
    by_cases hv : v = n
    · simp only [if_pos hv, h1, h2, true_and]
      exact fun b => ⟨h4 b, h3 b⟩
    · simp only [if_neg hv, if_true, Bool.false_eq_true, Bool.true_eq_false, if_false, true_and]
      exact fun b => ⟨⟨h1, h2, h3, h4⟩, Nonneg.one⟩

/-- The successors of a density-matrix edge, multiplied by its weight. -/
theorem QuadOk.of_expand {n : ℕ} {e : MEdge} (h : HOk (n + 1) e) :
    QuadOk n fun b => ⟨(DD.expand n e.p b).p, e.w * (DD.expand n e.p b).w⟩ := by
  obtain ⟨h1, h2⟩ := h.shape.expand n
  refine ⟨fun b => expand_can h.can b, by simp only [h1], fun b => ⟨expand_can h.can _, (h2 b).1, h.real.mul (h2 b).2⟩⟩

theorem quad_smul (n : ℕ) (e : RC → MEdge) {z : ℂ} (hz : Nonneg z) (x y : Bits) :
    quad n (fun b => ⟨(e b).p, z * (e b).w⟩) x y = z * quad n e x y := by
  simp only [quad, Edge.dens, Edge.mat]
  split_ifs
  · ring
  · ring
  · rw [map_mul, map_mul, map_mul, hz.conj]
    ring

theorem dens_quad {n : ℕ} {e : MEdge} (h : Nonneg e.w) (x y : Bits) :
    quad n (fun b => ⟨(DD.expand n e.p b).p, e.w * (DD.expand n e.p b).w⟩) x y = e.dens (n + 1) x y := by
  rw [quad_smul n _ h, dens_succ]

theorem dens_update {n : ℕ} (e : MEdge) (a b : Bool) (x y : Bits) : e.dens n (update x n a) (update y n b) = e.dens n x y := by
  unfold Edge.dens
  rw [hval_congr n _ (x' := x) (y' := y) (fun q hq => Function.update_of_ne (by omega) _ _)
    (fun q hq => Function.update_of_ne (by omega) _ _)]

theorem mat_update {n : ℕ} (e : MEdge) (a b : Bool) (x y : Bits) : e.mat n (update x n a) (update y n b) = e.mat n x y := by
  unfold Edge.mat
  rw [mval_congr n _ (x' := x) (y' := y) (fun q hq => Function.update_of_ne (by omega) _ _)
    (fun q hq => Function.update_of_ne (by omega) _ _)]

theorem quad_update (n : ℕ) (e : RC → MEdge) (b : Bool) (x y : Bits) :
    quad n e (update x n b) (update y n b) = (e (b, b)).dens n x y := by
  rw [quad]
  simp only [Function.update_self, if_true]
  rw [dens_update]

theorem Mix.block {n : ℕ} {e : RC → MEdge} (h : Mix (quad n e)) (b : Bool) : Mix ((e (b, b)).dens n) :=
  (h.comp fun x => update x n b).congr fun x y => (quad_update n e b x y).symm

/-! ### Addition -/

theorem madd2_can {n : ℕ} {x y : MEdge} (hx : MCan n x.p) (hy : MCan n y.p) :
    ∃ r, madd2 n x y = some r ∧ MCan n r.p ∧ ∀ a b, r.mat n a b = x.mat n a b + y.mat n a b := by
  obtain ⟨r, h1, h2, h3⟩ := madd2_spec (x := x) (y := y) (fun _ => hx) (fun _ => hy)
  refine ⟨r, h1, ?_, h3⟩
  cases h : addPre x y with
  | some r' =>
    have e := recM_pre h n
    rw [show recM addPre n x y = madd2 n x y from rfl, h1] at e
    cases e
    unfold addPre at h
    split_ifs at h <;> cases h
    · trivial
    · exact hy
    · exact hx
    · exact hx
  | none =>
    cases n with
    | zero =>
      rw [madd2, recM, h] at h1
      cases h1
    | succ n =>
      rw [madd2, recM, h] at h1
      simp only [Option.map_eq_some_iff] at h1
      obtain ⟨g, hg, rfl⟩ := h1
      have hb : ∀ b, MOk n (g b) := by
        intro b
        obtain ⟨r, e1, e2, -⟩ := madd2_spec (msucc_ok hx b) (msucc_ok hy b)
        have : recM addPre n (msucc n x b) (msucc n y b) = some (g b) := by
          unfold collect at hg
          split_ifs at hg with hs
          cases hg
          simp
        rw [show recM addPre n _ _ = madd2 n _ _ from rfl, e1] at this
        cases this
        exact e2
      have := makeM_can hb
      by_cases h0 : (makeM n g).w = 0
      · rw [this.1 h0]; trivial
      · exact this.2 h0

theorem hadd_spec (n : ℕ) (x y : MEdge) (hx : HOk n x) (hy : HOk n y) (mx : Mix (x.dens n)) (my : Mix (y.dens n)) :
    ∃ r, madd2 n x y = some r ∧ HOk n r ∧ ∀ a b, r.dens n a b = x.dens n a b + y.dens n a b := by
  cases h : addPre x y with
  | some r =>
    refine ⟨r, recM_pre h n, ?_⟩
    unfold addPre at h
    split_ifs at h with h1 h2 h3 h4 <;> cases h
    · exact ⟨⟨trivial, trivial, Nonneg.zero⟩, fun a b => by simp [Edge.dens, h1, h2]⟩
    · exact ⟨hy, fun a b => by simp [Edge.dens, h1]⟩
    · exact ⟨hx, fun a b => by simp [Edge.dens, h3]⟩
    · exact ⟨⟨hx.can, hx.shape, hx.real.add hy.real⟩, fun a b => by simp only [Edge.dens, ← h4]; ring⟩
  | none =>
    obtain ⟨h1, h2, h3⟩ := addPre_goodM.go x y h
    cases n with
    | zero => exact absurd (hx.can.zero_cases.trans hy.can.zero_cases.symm) h3
    | succ n =>
      have ex : ∀ b, msucc n x b = ⟨(expand n x.p b).p, x.w * (expand n x.p b).w⟩ := msucc_eq hx.can
      have ey : ∀ b, msucc n y b = ⟨(expand n y.p b).p, y.w * (expand n y.p b).w⟩ := msucc_eq hy.can
      have qx := QuadOk.of_expand hx
      have qy := QuadOk.of_expand hy
      simp only [← ex] at qx
      simp only [← ey] at qy
      have dx : ∀ a b, quad n (fun b => msucc n x b) a b = x.dens (n + 1) a b := fun a b => by
        simp only [ex]; exact dens_quad hx.real a b
      have dy : ∀ a b, quad n (fun b => msucc n y b) a b = y.dens (n + 1) a b := fun a b => by
        simp only [ey]; exact dens_quad hy.real a b
      have mx' := mx.congr dx
      have my' := my.congr dy
      have hoff : ∀ b, ∃ r, madd2 n (msucc n x b) (msucc n y b) = some r ∧ MCan n r.p ∧
          (∀ a c, r.mat n a c = (msucc n x b).mat n a c + (msucc n y b).mat n a c) ∧
          (b.1 = b.2 → HOk n r ∧ ∀ a c, r.dens n a c = (msucc n x b).dens n a c + (msucc n y b).dens n a c) := by
        intro b
        obtain ⟨r, e1, e2, e3⟩ := madd2_can (qx.can b) (qy.can b)
        refine ⟨r, e1, e2, e3, fun hb => ?_⟩
        obtain ⟨b1, b2⟩ := b
        simp only at hb
        subst hb
        obtain ⟨r', e1', e2', e3'⟩ := hadd_spec n _ _ (qx.diag b1) (qy.diag b1) (mx'.block b1) (my'.block b1)
        rw [e1] at e1'
        cases e1'
        exact ⟨e2', e3'⟩
      choose g hg using hoff
      have hsum : ∀ a b, quad n g a b = quad n (fun b => msucc n x b) a b + quad n (fun b => msucc n y b) a b := by
        intro a b
        simp only [quad]
        split_ifs with hab hf
        · exact ((hg _).2.2.2 hab).2 a b
        · exact (hg _).2.2.1 a b
        · rw [(hg _).2.2.1 b a, map_add]
      have hq : QuadOk n g := by
        refine ⟨fun b => (hg b).2.1, ?_, fun b => ((hg (b, b)).2.2.2 rfl).1⟩
        have e1 := (hg (false, true)).1
        rw [qx.off, qy.off, (hg (true, false)).1] at e1
        exact (Option.some.inj e1).symm
      obtain ⟨k1, k2⟩ := makeM_quad hq ((mx'.add my').congr hsum)
      refine ⟨makeM n g, ?_, k1, fun a b => by rw [k2, hsum, dx, dy]⟩
      rw [madd2, recM, h]
      simp only
      have hc := collect_some (f := fun b => recM addPre n (msucc n x b) (msucc n y b)) (g := g) fun b => (hg b).1
      rw [hc]
      rfl

/-! ### Levels -/

theorem hval_skip {n m : ℕ} {p : MNode} (h : MCan n p) (hm : n ≤ m) (x y : Bits) :
    hval (m + 1) p x y = if x m = y m then hval m p x y else 0 := by
  rw [hval]
  simp only [expand_skip h hm, Bool.false_eq_true, Bool.true_eq_false, if_false, zero_mat, map_zero, ite_self]
  split_ifs with h'
  · simp
  · rfl

theorem dens_lift {n N : ℕ} {e : MEdge} (h : MCan n e.p) (hN : n ≤ N) (x y : Bits) :
    e.dens N x y = if ∀ q, n ≤ q → q < N → x q = y q then e.dens n x y else 0 := by
  induction N, hN using Nat.le_induction with
  | base => rw [if_pos fun q h1 h2 => by omega]
  | succ N hN ih =>
    unfold Edge.dens at ih ⊢
    rw [hval_skip h hN]
    by_cases h' : x N = y N
    · rw [if_pos h', ih]
      congr 1
      refine propext ⟨fun hh q h1 h2 => ?_, fun hh q h1 h2 => hh q h1 (by omega)⟩
      rcases Nat.lt_succ_iff_lt_or_eq.1 h2 with h3 | rfl
      · exact hh q h1 h3
      · exact h'
    · rw [if_neg h', if_neg fun hh => h' (hh N hN (by omega)), mul_zero]

/-- `add2` started on a level that is at least that of both operands. -/
theorem madd2_at {m n : ℕ} (hmn : m ≤ n) {x y : MEdge} (hx : MCan n x.p) (hy : MCan n y.p) (vx : x.p.var < m)
    (vy : y.p.var < m) : ∃ r, madd2 m x y = some r ∧ MCan n r.p ∧ (∀ a b, r.mat n a b = x.mat n a b + y.mat n a b) ∧
    (HOk n x → HOk n y → Mix (x.dens n) → Mix (y.dens n) →
      HOk n r ∧ ∀ a b, r.dens n a b = x.dens n a b + y.dens n a b) := by
  have hx' := hx.tight vx
  have hy' := hy.tight vy
  obtain ⟨r, h1, h2, h3⟩ := madd2_can hx' hy'
  refine ⟨r, h1, MOk.mono hmn h2, fun a b => ?_, fun ox oy mx my => ?_⟩
  · rw [mat_lift (fun _ => h2) hmn, mat_lift (fun _ => hx') hmn, mat_lift (fun _ => hy') hmn, h3]
    split_ifs
    · rfl
    · simp
  · have low : ∀ e : MEdge, MCan m e.p → Mix (e.dens n) → Mix (e.dens m) := by
      intro e he hm
      refine (hm.comp fun z q => if q < m then z q else false).congr fun a b => ?_
      rw [dens_lift he hmn, if_pos fun q h1 h2 => by rw [if_neg (by omega), if_neg (by omega)]]
      unfold Edge.dens
      rw [hval_congr m _ (x' := a) (y' := b) (fun q hq => if_pos hq) (fun q hq => if_pos hq)]
    obtain ⟨r', k1, k2, k3⟩ := hadd_spec m x y ⟨hx', ox.shape, ox.real⟩ ⟨hy', oy.shape, oy.real⟩ (low _ hx' mx) (low _ hy' my)
    rw [h1] at k1
    cases k1
    refine ⟨⟨MOk.mono hmn k2.can, k2.shape, k2.real⟩, fun a b => ?_⟩
    rw [dens_lift k2.can hmn, dens_lift hx' hmn, dens_lift hy' hmn, k3]
    split_ifs
    · rfl
    · simp

end MQT.DD
