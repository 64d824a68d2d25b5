/-
Canonicity: in the package's form (`VECan`, `MECan`) different edges represent
different vectors and matrices.  This is what makes equality checking by pointer
comparison correct (include/mqt-core/dd/Package.hpp 472-510 together with the
normalisation of src/dd/CachedEdge.cpp).
-/
import Verif.DD.Basic

set_option autoImplicit false

noncomputable section

open Classical
open Function (update)
open Complex (normSq)

namespace MQT.DD

open MQT.IR (Bits State)

theorem VCan.nonzero {n : ℕ} {p : VNode} (h : VCan n p) : ∃ x, vval p x ≠ 0 := by
  induction p generalizing n with
  | term => exact ⟨fun _ => false, one_ne_zero⟩
  | node v w c ih =>
    obtain ⟨rfl, h2, h3⟩ := h
    have : ∃ b, w b ≠ 0 := by
      by_contra hn
      push Not at hn
      rw [(vtop_eq_zero w).2 hn] at h2
      exact zero_ne_one h2
    obtain ⟨b, hb⟩ := this
    have hc := (h3 b).2 hb
    obtain ⟨x, hx⟩ := ih b hc
    refine ⟨update x v b, ?_⟩
    rw [vval, Function.update_self]
    apply mul_ne_zero hb
    rw [vval_congr hc (y := x)]
    · exact hx
    · intro q hq
      exact Function.update_of_ne (by omega) _ _

theorem vcan_inj {n : ℕ} {p q : VNode} (hp : VCan n p) (hq : VCan n q) {a b : ℂ} (ha : a ≠ 0)
    (hb : b ≠ 0) (h : ∀ x, a * vval p x = b * vval q x) : p = q ∧ a = b := by
  induction p generalizing n q a b with
  | term =>
    cases q with
    | term =>
      have := h (fun _ => false)
      simpa [vval] using this
    | node v w c =>
      have h1 : n = 0 := hp
      have h2 : n = v + 1 := hq.1
      omega
  | node v w c ih =>
    obtain ⟨rfl, h2, h3⟩ := hp
    cases q with
    | term => exact absurd (show v + 1 = 0 from hq) (by omega)
    | node v' w' c' =>
      obtain ⟨h1', h2', h3'⟩ := hq
      obtain rfl : v = v' := by omega
      have hall : ∀ β x, (w β ≠ 0 → w' β ≠ 0 → a * w β * vval (c β) x = b * w' β * vval (c' β) x)
          ∧ (w β = 0 → w' β ≠ 0 → b * w' β * vval (c' β) x = 0)
          ∧ (w β ≠ 0 → w' β = 0 → a * w β * vval (c β) x = 0) := by
        intro β x
        have := h (update x v β)
        rw [vval, vval, Function.update_self] at this
        have hupd : ∀ q < v, (update x v β) q = x q :=
          fun q hq => Function.update_of_ne (by omega) _ _
        refine ⟨fun e1 e2 => ?_, fun e1 e2 => ?_, fun e1 e2 => ?_⟩
        · rw [vval_congr ((h3 β).2 e1) hupd, vval_congr ((h3' β).2 e2) hupd] at this
          rw [mul_assoc, this, mul_assoc]
        · rw [vval_congr ((h3' β).2 e2) hupd, e1] at this
          rw [mul_assoc, ← this]; simp
        · rw [vval_congr ((h3 β).2 e1) hupd, e2] at this
          rw [mul_assoc, this]; simp
      have hboth : ∀ β, c β = c' β ∧ a * w β = b * w' β := by
        intro β
        by_cases e1 : w β = 0
        · by_cases e2 : w' β = 0
          · exact ⟨by rw [(h3 β).1 e1, (h3' β).1 e2], by rw [e1, e2, mul_zero, mul_zero]⟩
          · obtain ⟨x, hx⟩ := ((h3' β).2 e2).nonzero
            exact absurd ((hall β x).2.1 e1 e2) (mul_ne_zero (mul_ne_zero hb e2) hx)
        · by_cases e2 : w' β = 0
          · obtain ⟨x, hx⟩ := ((h3 β).2 e1).nonzero
            exact absurd ((hall β x).2.2 e1 e2) (mul_ne_zero (mul_ne_zero ha e1) hx)
          · exact ih β ((h3 β).2 e1) ((h3' β).2 e2) (mul_ne_zero ha e1) (mul_ne_zero hb e2)
              (fun x => (hall β x).1 e1 e2)
      have hab : a = b := by
        have e1 := vtop_smul w a
        have e2 := vtop_smul w' b
        rw [h2, mul_one] at e1
        rw [h2', mul_one] at e2
        rw [← e1, ← e2]
        congr 1
        funext β
        exact (hboth β).2
      refine ⟨?_, hab⟩
      have hw : w = w' := by
        funext β
        have := (hboth β).2
        rw [hab] at this
        exact mul_left_cancel₀ hb this
      have hc : c = c' := funext fun β => (hboth β).1
      rw [hw, hc]

theorem vecan_inj {n : ℕ} {e f : VEdge} (he : VECan n e) (hf : VECan n f)
    (h : ∀ x, e.vec x = f.vec x) : e = f := by
  by_cases e0 : e.w = 0
  · by_cases f0 : f.w = 0
    · ext
      · rw [he.1 e0, hf.1 f0]
      · rw [e0, f0]
    · obtain ⟨x, hx⟩ := (hf.2 f0).nonzero
      have := h x
      simp only [Edge.vec, e0, zero_mul] at this
      exact absurd this.symm (mul_ne_zero f0 hx)
  · by_cases f0 : f.w = 0
    · obtain ⟨x, hx⟩ := (he.2 e0).nonzero
      have := h x
      simp only [Edge.vec, f0, zero_mul] at this
      exact absurd this (mul_ne_zero e0 hx)
    · obtain ⟨h1, h2⟩ := vcan_inj (he.2 e0) (hf.2 f0) e0 f0 h
      ext
      · exact h1
      · exact h2

/-! ### Matrices -/

theorem mtop_ne {w : RC → ℂ} (h : mtop w = 1) : ∃ b, w b ≠ 0 := by
  by_contra hn
  push Not at hn
  rw [(mtop_eq_zero w).2 hn] at h
  exact zero_ne_one h

theorem mtop_delta : mtop (fun b : RC => if b.1 = b.2 then (1 : ℂ) else 0) = 1 := by
  simp [mtop, marg, rcs, margStep]

theorem MCan.nonzero {n : ℕ} {p : MNode} (h : MCan n p) : ∃ x y, mval n p x y ≠ 0 := by
  induction n generalizing p with
  | zero => exact ⟨fun _ => false, fun _ => false, one_ne_zero⟩
  | succ n ih =>
    have : ∃ b, (expand n p b).w ≠ 0 := by
      cases p with
      | term => exact ⟨(false, false), by simp [expand]⟩
      | node v w c =>
        by_cases hv : v = n
        · obtain ⟨b, hb⟩ := mtop_ne h.2.1
          exact ⟨b, by simp [expand, hv, hb]⟩
        · exact ⟨(false, false), by simp [expand, hv]⟩
    obtain ⟨⟨b1, b2⟩, hb⟩ := this
    obtain ⟨x, y, hxy⟩ := ih ((h.block (b1, b2)).2 hb)
    refine ⟨update x n b1, update y n b2, ?_⟩
    rw [mval, Function.update_self, Function.update_self]
    apply mul_ne_zero hb
    rw [mval_congr n _ (x' := x) (y' := y)]
    · exact hxy
    · intro q hq; exact Function.update_of_ne (by omega) _ _
    · intro q hq; exact Function.update_of_ne (by omega) _ _

/-- A node on level `n`, or one below it. -/
theorem level_cases (n : ℕ) (p : MNode) :
    (∃ w c, p = .node n w c) ∨ ∀ b, expand n p b = if b.1 = b.2 then ⟨p, 1⟩ else .zero := by
  cases p with
  | term => exact Or.inr fun b => rfl
  | node v w c =>
    by_cases hv : v = n
    · subst hv; exact Or.inl ⟨w, c, rfl⟩
    · refine Or.inr fun b => ?_
      unfold expand
      simp only
      rw [if_neg hv]

theorem mcan_mixed {n : ℕ} {w : RC → ℂ} {c : RC → MNode} {q : MNode}
    (hp : MCan (n + 1) (.node n w c))
    (hq : ∀ b, expand n q b = if b.1 = b.2 then ⟨q, 1⟩ else .zero) {a b : ℂ} (ha : a ≠ 0)
    (hboth : ∀ β, (expand n (.node n w c) β).p = (expand n q β).p ∧
      a * (expand n (.node n w c) β).w = b * (expand n q β).w) : False := by
  have hE : ∀ β, expand n (.node n w c) β = ⟨c β, w β⟩ := by
    intro β; simp [expand]
  have hw : ∀ β : RC, a * w β = b * (if β.1 = β.2 then 1 else 0) := by
    intro β
    have := (hboth β).2
    rw [hE, hq] at this
    rw [this]
    split_ifs <;> rfl
  have hab : a = b := by
    have e1 := mtop_smul w a
    rw [hp.2.1, mul_one] at e1
    have e2 := mtop_smul (fun b : RC => if b.1 = b.2 then (1 : ℂ) else 0) b
    rw [mtop_delta, mul_one] at e2
    rw [← e1, ← e2]
    congr 1
    funext β
    exact hw β
  have hw' : ∀ β : RC, w β = if β.1 = β.2 then 1 else 0 := by
    intro β
    have := hw β
    rw [← hab] at this
    exact mul_left_cancel₀ ha this
  apply hp.2.2.1
  refine ⟨?_, by simp [hw'], by simp [hw'], by simp [hw'], by simp [hw']⟩
  have e1 := (hboth (false, false)).1
  have e2 := (hboth (true, true)).1
  rw [hE, hq] at e1 e2
  simp only [if_true] at e1 e2
  rw [e1, e2]

theorem mcan_inj {n : ℕ} {p q : MNode} (hp : MCan n p) (hq : MCan n q) {a b : ℂ} (ha : a ≠ 0)
    (hb : b ≠ 0) (h : ∀ x y, a * mval n p x y = b * mval n q x y) : p = q ∧ a = b := by
  induction n generalizing p q a b with
  | zero =>
    have : ∀ r : MNode, MCan 0 r → r = .term := by
      intro r hr
      cases r with
      | term => rfl
      | node v w c => exact absurd hr.1 (by omega)
    rw [this p hp, this q hq]
    have := h (fun _ => false) (fun _ => false)
    simpa [mval] using this
  | succ n ih =>
    have hstep : ∀ (r : MNode) (β : RC) (x y : Bits),
        mval (n + 1) r (update x n β.1) (update y n β.2)
          = (expand n r β).w * mval n (expand n r β).p x y := by
      intro r β x y
      rw [mval, Function.update_self, Function.update_self, mval_congr n _ (x' := x) (y' := y)]
      · intro q hq; exact Function.update_of_ne (by omega) _ _
      · intro q hq; exact Function.update_of_ne (by omega) _ _
    have hboth : ∀ β, (expand n p β).p = (expand n q β).p ∧
        a * (expand n p β).w = b * (expand n q β).w := by
      intro β
      have key : ∀ x y, a * (expand n p β).w * mval n (expand n p β).p x y
          = b * (expand n q β).w * mval n (expand n q β).p x y := by
        intro x y
        rw [mul_assoc, ← hstep, h, hstep, mul_assoc]
      obtain ⟨p1, p2⟩ := hp.block β
      obtain ⟨q1, q2⟩ := hq.block β
      by_cases e1 : (expand n p β).w = 0
      · by_cases e2 : (expand n q β).w = 0
        · exact ⟨by rw [p1 e1, q1 e2], by rw [e1, e2, mul_zero, mul_zero]⟩
        · obtain ⟨x, y, hx⟩ := (q2 e2).nonzero
          have := key x y
          rw [e1] at this
          simp only [mul_zero, zero_mul] at this
          exact absurd this.symm (mul_ne_zero (mul_ne_zero hb e2) hx)
      · by_cases e2 : (expand n q β).w = 0
        · obtain ⟨x, y, hx⟩ := (p2 e1).nonzero
          have := key x y
          rw [e2] at this
          simp only [mul_zero, zero_mul] at this
          exact absurd this (mul_ne_zero (mul_ne_zero ha e1) hx)
        · exact ih (p2 e1) (q2 e2) (mul_ne_zero ha e1) (mul_ne_zero hb e2) key
    rcases level_cases n p with ⟨w, c, rfl⟩ | hpl
    · rcases level_cases n q with ⟨w', c', rfl⟩ | hql
      · have hE : ∀ (w : RC → ℂ) (c : RC → MNode) β, expand n (.node n w c) β = ⟨c β, w β⟩ := by
          intro w c β; simp [expand]
        have hab : a = b := by
          have e1 := mtop_smul w a
          have e2 := mtop_smul w' b
          rw [hp.2.1, mul_one] at e1
          rw [hq.2.1, mul_one] at e2
          rw [← e1, ← e2]
          congr 1
          funext β
          have := (hboth β).2
          rwa [hE, hE] at this
        refine ⟨?_, hab⟩
        have hw : w = w' := by
          funext β
          have := (hboth β).2
          rw [hE, hE, hab] at this
          exact mul_left_cancel₀ hb this
        have hc : c = c' := by
          funext β
          have := (hboth β).1
          rwa [hE, hE] at this
        rw [hw, hc]
      · exact (mcan_mixed hp hql ha hboth).elim
    · rcases level_cases n q with ⟨w', c', rfl⟩ | hql
      · exact (mcan_mixed hq hpl hb (fun β => ⟨(hboth β).1.symm, (hboth β).2.symm⟩)).elim
      · have := hboth (false, false)
        rw [hpl, hql] at this
        simpa using this

theorem mecan_inj {n : ℕ} {e f : MEdge} (he : MECan n e) (hf : MECan n f)
    (h : ∀ x y, e.mat n x y = f.mat n x y) : e = f := by
  by_cases e0 : e.w = 0
  · by_cases f0 : f.w = 0
    · ext
      · rw [he.1 e0, hf.1 f0]
      · rw [e0, f0]
    · obtain ⟨x, y, hx⟩ := (hf.2 f0).nonzero
      have := h x y
      simp only [Edge.mat, e0, zero_mul] at this
      exact absurd this.symm (mul_ne_zero f0 hx)
  · by_cases f0 : f.w = 0
    · obtain ⟨x, y, hx⟩ := (he.2 e0).nonzero
      have := h x y
      simp only [Edge.mat, f0, zero_mul] at this
      exact absurd this (mul_ne_zero e0 hx)
    · obtain ⟨h1, h2⟩ := mcan_inj (he.2 e0) (hf.2 f0) e0 f0 h
      ext
      · exact h1
      · exact h2

end MQT.DD
