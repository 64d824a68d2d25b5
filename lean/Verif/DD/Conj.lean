/-
Conjugation, conjugate transposition, inner product, fidelity, expectation value.

Sources in /repo, src/dd/Package.cpp:
  839-861   `conjugate`, `conjugateRec`
  862-892   `conjugateTranspose`, `conjugateTransposeRec`
  921-935   `innerProduct`, `fidelity`
  945-986   recursive `innerProduct`
  1023-1036 `expectationValue`
-/
import Verif.DD.Multiply

set_option autoImplicit false

noncomputable section

open Classical
open Function (update)
open Complex (normSq)
open scoped ComplexConjugate

namespace MQT.DD

open MQT.IR (Bits State)

/-! ### Model -/

/-- `conjugateRec` on the edge with the given node and weight. -/
def conjRec : VNode → ℂ → VEdge
  | .term, w => if w = 0 then .zero else ⟨.term, conj w⟩
  | .node v w' c, w =>
    let res := makeV v (fun b => conjRec (c b) (w' b))
    ⟨res.p, res.w * conj w⟩

/-- `conjugate`. -/
def conjugate (a : VEdge) : VEdge := conjRec a.p a.w

/-- `conjugateTransposeRec`. -/
def ctRec : MNode → ℂ → MEdge
  | .term, w => ⟨.term, conj w⟩
  | .node v w' c, w =>
    let res := makeM v (fun b => ctRec (c (b.2, b.1)) (w' (b.2, b.1)))
    ⟨res.p, res.w * conj w⟩

/-- `conjugateTranspose`. -/
def conjTranspose (a : MEdge) : MEdge := ctRec a.p a.w

/-- The successor `i` of the first argument in the recursive inner product. -/
def ipLeft (n : ℕ) (x : VEdge) (i : Bool) : VEdge :=
  match x.p with
  | .term => ⟨x.p, 1⟩
  | .node v w c => if v = n then ⟨c i, conj (w i)⟩ else ⟨x.p, 1⟩

/-- The successor `i` of the second argument. -/
def ipRight (n : ℕ) (y : VEdge) (i : Bool) : VEdge :=
  match y.p with
  | .term => ⟨y.p, 1⟩
  | .node v w c => if v = n then ⟨c i, w i⟩ else ⟨y.p, 1⟩

/-- Recursive `innerProduct`; the first argument is `var`. -/
def ipRec : ℕ → VEdge → VEdge → ℂ
  | 0, x, y => if x.w = 0 then 0 else if y.w = 0 then 0 else x.w * y.w
  | n + 1, x, y =>
    if x.w = 0 then 0 else if y.w = 0 then 0 else
      (ipRec n (ipLeft n x false) (ipRight n y false)
        + ipRec n (ipLeft n x true) (ipRight n y true)) * (x.w * y.w)

/-- `innerProduct`. -/
def innerProduct (x y : VEdge) : ℂ :=
  match x.p, y.p with
  | .term, _ => 0
  | _, .term => 0
  | .node vx _ _, .node vy _ _ =>
    if x.w = 0 ∨ y.w = 0 then 0 else ipRec (max vx vy + 1) ⟨x.p, conj x.w⟩ y

/-- `fidelity`. -/
def fidelity (x y : VEdge) : ℝ := normSq (innerProduct x y)

/-- `expectationValue`; `none` if the observable acts on more qubits than the state
(an exception in the code) or the product is undefined. -/
def expectationValue (x : MEdge) (y : VEdge) : Option ℝ :=
  if x.p ≠ .term ∧ x.p.var > y.p.var then none
  else (mvmul x y).map fun y' => (innerProduct y y').re

/-! ### Conjugate -/

theorem conjRec_vec (p : VNode) (w : ℂ) (x : Bits) :
    (conjRec p w).vec x = conj ((⟨p, w⟩ : VEdge).vec x) := by
  induction p generalizing w with
  | term =>
    rw [conjRec]
    split_ifs with h
    · simp [Edge.vec, h]
    · simp [Edge.vec, vval]
  | node v w' c ih =>
    have e : (conjRec (.node v w' c) w).vec x
        = conj w * (makeV v (fun b => conjRec (c b) (w' b))).vec x := by
      simp only [conjRec, Edge.vec]; ring
    rw [e, makeV_vec, ih]
    simp only [Edge.vec, vval, map_mul]

theorem conjRec_w {p : VNode} {n : ℕ} (hp : VCan n p) (w : ℂ) :
    (conjRec p w).w = 0 ↔ w = 0 := by
  constructor
  · intro h
    by_contra hw
    obtain ⟨x, hx⟩ : ∃ x, vval p x ≠ 0 := by
      clear h
      induction p generalizing n w with
      | term => exact ⟨fun _ => false, one_ne_zero⟩
      | node v w' c ih =>
        obtain ⟨rfl, h2, h3⟩ := hp
        have : ∃ b, w' b ≠ 0 := by
          by_contra hn
          push Not at hn
          rw [(vtop_eq_zero w').2 hn] at h2
          exact zero_ne_one h2
        obtain ⟨b, hb⟩ := this
        obtain ⟨x, hx⟩ := ih b ((h3 b).2 hb) (w' b) hb
        refine ⟨update x v b, ?_⟩
        rw [vval, Function.update_self]
        refine mul_ne_zero hb ?_
        rw [vval_congr ((h3 b).2 hb) (y := x)
          (fun q hq => Function.update_of_ne (by omega) _ _)]
        exact hx
    have h1 := conjRec_vec p w x
    rw [Edge.vec, h, zero_mul] at h1
    have h2 : conj ((⟨p, w⟩ : VEdge).vec x) ≠ 0 := by
      rw [Ne, map_eq_zero]
      exact mul_ne_zero hw hx
    exact h2 h1.symm
  · intro h
    subst h
    cases p with
    | term => simp [conjRec]
    | node v w' c => simp [conjRec]

theorem conjRec_can (p : VNode) (w : ℂ) (n : ℕ) (h : VECan n ⟨p, w⟩) :
    VECan n (conjRec p w) := by
  induction p generalizing n w with
  | term =>
    rw [conjRec]
    split_ifs with h0
    · exact VECan.zero n
    · exact ⟨fun _ => rfl, fun _ => h.2 h0⟩
  | node v w' c ih =>
    have hw : w ≠ 0 := fun h0 => by
      have := h.1 h0
      cases this
    have hc := h.2 hw
    obtain ⟨rfl, h2, h3⟩ := hc
    have hch : ∀ b, VECan v (conjRec (c b) (w' b)) := fun b => ih b _ _ (h3 b)
    have hmk := makeV_can (fun b => (hch b).ok)
    have hne : (makeV v (fun b => conjRec (c b) (w' b))).w ≠ 0 := by
      intro h0
      have := (conjRec_w (p := .node v w' c) ⟨rfl, h2, h3⟩ w).1 (by
        simp only [conjRec]; rw [h0, zero_mul])
      exact hw this
    refine ⟨fun h0 => ?_, fun _ => hmk.2 hne⟩
    simp only [conjRec] at h0
    rcases mul_eq_zero.1 h0 with h1 | h1
    · exact absurd h1 hne
    · exact absurd ((map_eq_zero _).1 h1) hw

/-! ### Conjugate transpose -/

theorem ctRec_spec (p : MNode) (w : ℂ) (n : ℕ) (h : MECan n ⟨p, w⟩) :
    MOk n (ctRec p w) ∧ ∀ a b, (ctRec p w).mat n a b = conj ((⟨p, w⟩ : MEdge).mat n b a) := by
  induction p generalizing n w with
  | term =>
    rw [ctRec]
    refine ⟨fun _ => trivial, fun a b => ?_⟩
    rw [term_mat, term_mat]
    have : (∀ q < n, a q = b q) ↔ ∀ q < n, b q = a q :=
      ⟨fun h q hq => (h q hq).symm, fun h q hq => (h q hq).symm⟩
    simp only [this]
    split_ifs <;> simp
  | node v w' c ih =>
    have hw : w ≠ 0 := fun h0 => by
      have := h.1 h0
      cases this
    have hc := h.2 hw
    obtain ⟨h1, h2, h3, h4⟩ := hc
    have hch := fun b : RC => ih (b.2, b.1) (w' (b.2, b.1)) v (h4 (b.2, b.1))
    have hmk := makeM_can (fun b => (hch b).1)
    have hok : MOk (v + 1) (ctRec (.node v w' c) w) := by
      intro h0
      exact hmk.2 (left_ne_zero_of_mul h0)
    have hpv : MOk (v + 1) ⟨.node v w' c, w⟩ := fun _ => ⟨Nat.lt_succ_self v, h2, h3, h4⟩
    refine ⟨hok.up h1, fun a b => ?_⟩
    rw [mat_lift hok h1, mat_lift hpv h1]
    have hsym : (∀ q, v + 1 ≤ q → q < n → a q = b q) ↔ ∀ q, v + 1 ≤ q → q < n → b q = a q :=
      ⟨fun h q h1 h2 => (h q h1 h2).symm, fun h q h1 h2 => (h q h1 h2).symm⟩
    simp only [hsym]
    split_ifs with hs
    · have e : (ctRec (.node v w' c) w).mat (v + 1) a b
          = conj w * (makeM v (fun b => ctRec (c (b.2, b.1)) (w' (b.2, b.1)))).mat (v + 1) a b := by
        simp only [ctRec, Edge.mat]; ring
      rw [e, makeM_mat (fun b => (hch b).1), (hch (a v, b v)).2, mat_succ, map_mul]
      simp [expand]
    · simp

/-! ### Inner product -/

theorem ipLeft_eq {n : ℕ} {p : VNode} (h : VCan (n + 1) p) (a : ℂ) (i : Bool) :
    ∃ w c, p = .node n w c ∧ (∀ b, (w b ≠ 0 → VCan n (c b))) ∧
      ipLeft n ⟨p, a⟩ i = ⟨c i, conj (w i)⟩ := by
  obtain ⟨w, c, rfl, _, h3⟩ := h.cases
  exact ⟨w, c, rfl, fun b => (h3 b).2, by simp [ipLeft]⟩

theorem ipRight_eq {n : ℕ} {p : VNode} (h : VCan (n + 1) p) (a : ℂ) (i : Bool) :
    ∃ w c, p = .node n w c ∧ (∀ b, (w b ≠ 0 → VCan n (c b))) ∧
      ipRight n ⟨p, a⟩ i = ⟨c i, w i⟩ := by
  obtain ⟨w, c, rfl, _, h3⟩ := h.cases
  exact ⟨w, c, rfl, fun b => (h3 b).2, by simp [ipRight]⟩

theorem ipRec_spec (n : ℕ) {x y : VEdge} (hx : VOk n x) (hy : VOk n y) (s : Bits) :
    ipRec n x y = x.w * sumB n (fun z => conj (vval x.p z) * y.vec z) s := by
  induction n generalizing x y s with
  | zero =>
    rw [ipRec]
    by_cases hx0 : x.w = 0
    · simp [hx0]
    · by_cases hy0 : y.w = 0
      · rw [if_neg hx0, if_pos hy0]
        simp [Edge.vec, hy0, sumB]
      · rw [if_neg hx0, if_neg hy0, sumB, Edge.vec, (hx hx0).zero_cases, (hy hy0).zero_cases]
        simp [vval]
  | succ n ih =>
    rw [ipRec]
    by_cases hx0 : x.w = 0
    · simp [hx0]
    · by_cases hy0 : y.w = 0
      · rw [if_neg hx0, if_pos hy0]
        simp [Edge.vec, hy0, sumB_zero]
      · rw [if_neg hx0, if_neg hy0]
        obtain ⟨wx, cx, hpx, hcx, _⟩ := ipLeft_eq (hx hx0) x.w false
        obtain ⟨wy, cy, hpy, hcy, _⟩ := ipRight_eq (hy hy0) y.w false
        have eL : ∀ i, ipLeft n x i = ⟨cx i, conj (wx i)⟩ := fun i => by
          simp [ipLeft, hpx]
        have eR : ∀ i, ipRight n y i = ⟨cy i, wy i⟩ := fun i => by
          simp [ipRight, hpy]
        have okL : ∀ i, VOk n ⟨cx i, conj (wx i)⟩ := fun i h0 =>
          hcx i (fun h' => h0 (by simp [h']))
        have okR : ∀ i, VOk n ⟨cy i, wy i⟩ := fun i h0 => hcy i h0
        rw [eL, eL, eR, eR, ih (okL false) (okR false) s, ih (okL true) (okR true) s, sumB_succ]
        have hk : ∀ i z, conj (vval x.p (update z n i)) * y.vec (update z n i)
            = (conj (wx i) * y.w) * (conj (vval (cx i) z) * (⟨cy i, wy i⟩ : VEdge).vec z) := by
          intro i z
          have hupd : ∀ q < n, (update z n i) q = z q :=
            fun q hq => Function.update_of_ne (by omega) _ _
          simp only [Edge.vec, hpx, hpy, vval, Function.update_self, map_mul]
          by_cases h1 : wx i = 0
          · simp [h1]
          · by_cases h2 : wy i = 0
            · simp [h2]
            · rw [vval_congr (hcx i h1) hupd, vval_congr (hcy i h2) hupd]
              ring
        simp only [hk, sumB_mul_left]
        ring

/-- The Hermitian inner product of the represented `n`-qubit vectors. -/
def ip (n : ℕ) (u v : Bits → ℂ) (s : Bits) : ℂ := sumB n (fun z => conj (u z) * v z) s

theorem ip_eq (n : ℕ) (u v : Bits → ℂ) (s : Bits) :
    ip n u v s = ∑ t : Fin n → Bool, conj (u (fill t s)) * v (fill t s) := sumB_eq _ _ _

theorem innerProduct_spec {n : ℕ} {x y : VEdge} (hx : VECan (n + 1) x) (hy : VECan (n + 1) y)
    (s : Bits) : innerProduct x y = ip (n + 1) x.vec y.vec s := by
  unfold innerProduct ip
  by_cases hx0 : x.w = 0
  · rw [hx.1 hx0]
    simp [Edge.vec, hx0, sumB_zero]
  · by_cases hy0 : y.w = 0
    · obtain ⟨w, c, hp, _⟩ := (hx.2 hx0).cases
      rw [hp, hy.1 hy0]
      simp [Edge.vec, hy0, sumB_zero]
    · obtain ⟨w, c, hp, _⟩ := (hx.2 hx0).cases
      obtain ⟨w', c', hp', _⟩ := (hy.2 hy0).cases
      rw [hp, hp']
      simp only
      rw [if_neg (by simp [hx0, hy0]), max_self]
      have hxo : VOk (n + 1) ⟨.node n w c, conj x.w⟩ := fun _ => hp ▸ hx.2 hx0
      rw [ipRec_spec (n + 1) hxo hy.ok s, ← sumB_mul_left]
      apply sumB_congr
      intro z _
      simp only [Edge.vec, hp, map_mul]
      ring

end MQT.DD
