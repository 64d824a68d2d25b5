/-
The test whether a matrix is close to the identity (`isCloseToIdentity`).

Source in /repo: src/dd/Package.cpp 1042-1120.

Simplifications: see DD/Basic.lean.
-/
import Verif.DD.Density
import Mathlib.Analysis.SpecialFunctions.Complex.Arg

set_option autoImplicit false

noncomputable section

open Classical
open Complex (normSq)
open Function (update)

namespace MQT.DD

open MQT.IR (Bits)

/-! ### Model -/

/-- The tests of the weights on the diagonal (Package.cpp 1083-1106). -/
def OneOk (tol : ℝ) (w : RC → ℂ) : Prop :=
  |normSq (w (false, false)) - 1| ≤ tol ∧ |(w (false, false)).arg| ≤ tol ∧
    (tol < normSq (w (true, true)) → |normSq (w (true, true)) - 1| ≤ tol ∧ |(w (true, true)).arg| ≤ tol)

/-- `a && b`, with the visited nodes. -/
def andThen (r : Bool × List MNode) (f : List MNode → Bool × List MNode) : Bool × List MNode := if r.1 then f r.2 else (false, r.2)

/-- `isCloseToIdentityRecursive` (Package.cpp 1049-1120), which does not look at the weight of the edge: the result, and the visited
nodes. -/
def closeRec (tol : ℝ) (g : List Bool) (one : Bool) : MNode → List MNode → Bool × List MNode
  | .term, vis => (true, vis)
  | .node v w c, vis =>
    if Node.node v w c ∈ vis then (true, vis)
    else if g.getD v false then
      andThen (closeRec tol g one (c (false, false)) vis) fun vis =>
      andThen (closeRec tol g one (c (false, true)) vis) fun vis =>
      andThen (closeRec tol g one (c (true, false)) vis) fun vis =>
      closeRec tol g one (c (true, true)) vis
    else if tol < normSq (w (false, true)) ∨ tol < normSq (w (true, false)) then (false, vis)
    else if one = true ∧ ¬ OneOk tol w then (false, vis)
    else
      andThen (closeRec tol g one (c (false, false)) vis) fun vis =>
      let r := closeRec tol g one (c (true, true)) vis
      (r.1, Node.node v w c :: r.2)

/-- `isCloseToIdentity` (Package.cpp 1042-1048). -/
def isCloseToIdentity (m : MEdge) (tol : ℝ) (g : List Bool) (one : Bool) : Bool := (closeRec tol g one m.p []).1

/-! ### What is tested, without the visited nodes -/

/-- All nodes are accepted. -/
def Fine (tol : ℝ) (g : List Bool) (one : Bool) : MNode → Prop
  | .term => True
  | .node v w c =>
    if g.getD v false = true then ∀ b, Fine tol g one (c b)
    else (normSq (w (false, true)) ≤ tol ∧ normSq (w (true, false)) ≤ tol) ∧ (one = true → OneOk tol w) ∧
      Fine tol g one (c (false, false)) ∧ Fine tol g one (c (true, true))

theorem andThen_spec {r : Bool × List MNode} {f : List MNode → Bool × List MNode} {A B : Prop} {I : List MNode → Prop}
    (hr : (r.1 = true ↔ A) ∧ (r.1 = true → I r.2)) (hf : A → ∀ vis, I vis → ((f vis).1 = true ↔ B) ∧ ((f vis).1 = true → I (f vis).2)) :
    ((andThen r f).1 = true ↔ A ∧ B) ∧ ((andThen r f).1 = true → I (andThen r f).2) := by
  unfold andThen
  by_cases h : r.1 = true
  · rw [if_pos h]
    have := hf (hr.1.1 h) r.2 (hr.2 h)
    exact ⟨this.1.trans ⟨fun hb => ⟨hr.1.1 h, hb⟩, fun hb => hb.2⟩, this.2⟩
  · rw [if_neg h]
    refine ⟨⟨fun hc => by simp at hc, fun hc => absurd (hr.1.2 hc.1) h⟩, fun hc => by simp at hc⟩

theorem closeRec_spec (tol : ℝ) (g : List Bool) (one : Bool) (p : MNode) : ∀ vis : List MNode, (∀ q ∈ vis, Fine tol g one q) →
    ((closeRec tol g one p vis).1 = true ↔ Fine tol g one p) ∧
      ((closeRec tol g one p vis).1 = true → ∀ q ∈ (closeRec tol g one p vis).2, Fine tol g one q) := by
  induction p with
  | term => exact fun vis h => ⟨⟨fun _ => trivial, fun _ => rfl⟩, fun _ => h⟩
  | node v w c ih =>
    intro vis h
    unfold closeRec
    by_cases hm : Node.node v w c ∈ vis
    · rw [if_pos hm]
      exact ⟨⟨fun _ => h _ hm, fun _ => rfl⟩, fun _ => h⟩
    rw [if_neg hm]
    by_cases hg : g.getD v false = true
    · rw [if_pos hg]
      have key := andThen_spec (I := fun vis => ∀ q ∈ vis, Fine tol g one q) (ih (false, false) vis h)
        (B := Fine tol g one (c (false, true)) ∧ Fine tol g one (c (true, false)) ∧ Fine tol g one (c (true, true)))
        (f := fun vis =>
          andThen (closeRec tol g one (c (false, true)) vis) fun vis =>
          andThen (closeRec tol g one (c (true, false)) vis) fun vis =>
          closeRec tol g one (c (true, true)) vis) fun _ vis hv =>
        andThen_spec (I := fun vis => ∀ q ∈ vis, Fine tol g one q) (ih (false, true) vis hv) fun _ vis hv =>
        andThen_spec (I := fun vis => ∀ q ∈ vis, Fine tol g one q) (ih (true, false) vis hv) fun _ vis hv => ih (true, true) vis hv
      refine ⟨key.1.trans ?_, key.2⟩
      rw [Fine, if_pos hg]
      constructor
      · rintro ⟨h1, h2, h3, h4⟩ ⟨a, b⟩
        cases a <;> cases b <;> assumption
      · exact fun h => ⟨h _, h _, h _, h _⟩
    rw [if_neg hg]
    by_cases ho : tol < normSq (w (false, true)) ∨ tol < normSq (w (true, false))
    · rw [if_pos ho, Fine, if_neg hg]
      refine ⟨⟨fun hc => by simp at hc, fun hc => ?_⟩, fun hc => by simp at hc⟩
      rcases ho with ho | ho
      · exact absurd hc.1.1 (not_le.2 ho)
      · exact absurd hc.1.2 (not_le.2 ho)
    rw [if_neg ho]
    by_cases h1 : one = true ∧ ¬ OneOk tol w
    · rw [if_pos h1, Fine, if_neg hg]
      exact ⟨⟨fun hc => by simp at hc, fun hc => absurd (hc.2.1 h1.1) h1.2⟩, fun hc => by simp at hc⟩
    rw [if_neg h1]
    push Not at ho h1
    have hfine : Fine tol g one (.node v w c) ↔ Fine tol g one (c (false, false)) ∧ Fine tol g one (c (true, true)) := by
      rw [Fine, if_neg hg]
      exact ⟨fun hc => hc.2.2, fun hc => ⟨ho, h1, hc⟩⟩
    rw [hfine]
    refine andThen_spec (I := fun vis => ∀ q ∈ vis, Fine tol g one q) (ih (false, false) vis h) fun h0 vis hv => ?_
    have := ih (true, true) vis hv
    refine ⟨this.1, fun hr q hq => ?_⟩
    rcases List.mem_cons.1 hq with rfl | hq
    · exact hfine.2 ⟨h0, this.1.1 hr⟩
    · exact this.2 hr q hq

theorem isCloseToIdentity_iff (m : MEdge) (tol : ℝ) (g : List Bool) (one : Bool) :
    isCloseToIdentity m tol g one = true ↔ Fine tol g one m.p :=
  (closeRec_spec tol g one m.p [] (by simp)).1

/-! ### The matrix -/

theorem norm_le_of_normSq {z : ℂ} {tol : ℝ} (h : normSq z ≤ tol) : ‖z‖ ≤ √tol := by
  rw [← Real.sqrt_sq (norm_nonneg z), ← Complex.normSq_eq_norm_sq]
  exact Real.sqrt_le_sqrt h

theorem mval_node_top (v : ℕ) (w : RC → ℂ) (c : RC → MNode) (x y : Bits) :
    mval (v + 1) (.node v w c) x y = w (x v, y v) * mval v (c (x v, y v)) x y := by
  rw [mval, expand, if_pos rfl]

/-- Entries off the diagonal of qubits that are not garbage are small. -/
theorem Fine.small {tol : ℝ} {g : List Bool} {one : Bool} {q : ℕ} (hg : g.getD q false = false) {x y : Bits} (hxy : x q ≠ y q) :
    ∀ (n : ℕ) (p : MNode), MCan n p → Fine tol g one p → q < n → ‖mval n p x y‖ ≤ √tol
  | n + 1, .term, _, _, hq => by
    rw [mval_term, if_neg fun h => hxy (h q hq), norm_zero]
    exact Real.sqrt_nonneg _
  | n + 1, .node v w c, h, hf, hq => by
    by_cases hv : v = n
    · subst hv
      rw [mval_node_top]
      by_cases h0 : w (x v, y v) = 0
      · rw [h0, zero_mul, norm_zero]
        exact Real.sqrt_nonneg _
      have hc := (h.2.2.2 (x v, y v)).2 h0
      have hw : ‖w (x v, y v)‖ ≤ 1 := by
        have := expand_norm h (x v, y v)
        rwa [expand, if_pos rfl] at this
      have hm := mval_norm v _ hc x y
      rw [norm_mul]
      by_cases hoff : g.getD v false = false ∧ x v ≠ y v
      · have : ‖w (x v, y v)‖ ≤ √tol := by
          rw [Fine, if_neg (by rw [hoff.1]; simp)] at hf
          apply norm_le_of_normSq
          cases hx : x v <;> cases hy : y v
          · exact absurd (hx.trans hy.symm) hoff.2
          · exact hf.1.1
          · exact hf.1.2
          · exact absurd (hx.trans hy.symm) hoff.2
        calc ‖w (x v, y v)‖ * ‖mval v (c (x v, y v)) x y‖ ≤ √tol * 1 := mul_le_mul this hm (norm_nonneg _) (Real.sqrt_nonneg _)
          _ = √tol := mul_one _
      · have hqv : q ≠ v := by
          rintro rfl
          exact hoff ⟨hg, hxy⟩
        have hfc : Fine tol g one (c (x v, y v)) := by
          rw [Fine] at hf
          split at hf
          · exact hf _
          next hg' =>
            have hg'' : g.getD v false = false := by simpa using hg'
            have he : x v = y v := by
              by_contra hne
              exact hoff ⟨hg'', hne⟩
            rw [← he]
            cases x v
            · exact hf.2.2.1
            · exact hf.2.2.2
        have := Fine.small hg hxy v _ hc hfc (by omega)
        calc ‖w (x v, y v)‖ * ‖mval v (c (x v, y v)) x y‖ ≤ 1 * √tol := mul_le_mul hw this (norm_nonneg _) zero_le_one
          _ = √tol := one_mul _
    · have hvn : v < n := lt_of_le_of_ne (Nat.lt_succ_iff.1 h.1) hv
      have h' : MCan n (.node v w c) := ⟨hvn, h.2⟩
      rw [mval_skip h' le_rfl]
      split
      next he =>
        have hqn : q ≠ n := by
          rintro rfl
          exact hxy he
        exact Fine.small hg hxy n _ h' hf (by omega)
      · rw [norm_zero]
        exact Real.sqrt_nonneg _

/-- The entries outside the diagonal of the qubits that are not garbage are 0. -/
def DiagOn (g : List Bool) (n : ℕ) (p : MNode) : Prop := ∀ x y : Bits, (∃ q < n, g.getD q false = false ∧ x q ≠ y q) → mval n p x y = 0

theorem Fine.of_diag {tol : ℝ} (ht : 0 ≤ tol) {g : List Bool} (p : MNode) : ∀ n : ℕ, MCan n p → DiagOn g n p → Fine tol g false p := by
  induction p with
  | term => exact fun _ _ _ => trivial
  | node v w c ih =>
    intro n h hd
    have hvn := h.1
    have h' : MCan (v + 1) (.node v w c) := ⟨Nat.lt_succ_self v, h.2⟩
    have top : ∀ x y : Bits, (∃ q < v + 1, g.getD q false = false ∧ x q ≠ y q) → w (x v, y v) * mval v (c (x v, y v)) x y = 0 := by
      rintro x y ⟨q, hq, hgq, hne⟩
      have hy : ∀ q < v + 1, (fun q => if q < v + 1 then y q else x q) q = y q := fun q hq => if_pos hq
      have h0 := hd x (fun q => if q < v + 1 then y q else x q) ⟨q, by omega, hgq, by
        rw [show (if q < v + 1 then y q else x q) = y q from if_pos hq]
        exact hne⟩
      have hl := mval_lift h' (n - (v + 1)) x fun q => if q < v + 1 then y q else x q
      rw [show v + 1 + (n - (v + 1)) = n by omega, h0, if_pos fun q h1 _ => by rw [if_neg (by omega)],
        mval_congr (v + 1) _ (fun _ _ => rfl) hy, mval_node_top] at hl
      exact hl.symm
    have sub : ∀ b : RC, (∀ x y : Bits, x v = b.1 → y v = b.2 → (∃ q < v, g.getD q false = false ∧ x q ≠ y q) →
        w b * mval v (c b) x y = 0) := by
      rintro ⟨a, b⟩ x y rfl rfl ⟨q, hq, hr⟩
      exact top x y ⟨q, by omega, hr⟩
    have child : ∀ b : RC, Fine tol g false (c b) := by
      intro b
      by_cases h0 : w b = 0
      · rw [(h.2.2.2 b).1 h0]
        trivial
      · apply ih b v ((h.2.2.2 b).2 h0)
        rintro x y ⟨q, hq, hgq, hne⟩
        have hu : ∀ (x : Bits) (a : Bool), ∀ q < v, update x v a q = x q := by
          intro x a q hq
          exact Function.update_of_ne (by omega) _ _
        have := sub b (update x v b.1) (update y v b.2) (Function.update_self ..) (Function.update_self ..)
          ⟨q, hq, hgq, by rw [hu x _ q hq, hu y _ q hq]; exact hne⟩
        rw [mval_congr v _ (hu x b.1) (hu y b.2)] at this
        exact (mul_eq_zero.1 this).resolve_left h0
    rw [Fine]
    split
    · exact child
    next hg =>
      have off : ∀ b : RC, b.1 ≠ b.2 → normSq (w b) ≤ tol := by
        intro b hb
        by_cases h0 : w b = 0
        · rw [h0, map_zero]
          exact ht
        · obtain ⟨x, y, hp⟩ := mval_peak v _ ((h.2.2.2 b).2 h0)
          have hu : ∀ (x : Bits) (a : Bool), ∀ q < v, update x v a q = x q := by
            intro x a q hq
            exact Function.update_of_ne (by omega) _ _
          have := top (update x v b.1) (update y v b.2) ⟨v, Nat.lt_succ_self v, by simpa using hg, by
            rw [Function.update_self, Function.update_self]
            exact hb⟩
          rw [Function.update_self, Function.update_self] at this
          rw [mval_congr v _ (hu x b.1) (hu y b.2), hp, mul_one] at this
          exact absurd this h0
      exact ⟨⟨off _ (by simp), off _ (by simp)⟩, fun hc => by simp at hc, child _, child _⟩

theorem eq_one_of {z : ℂ} (h1 : |normSq z - 1| ≤ 0) (h2 : |z.arg| ≤ 0) : z = 1 := by
  have a := abs_nonpos_iff.1 h1
  have b := abs_nonpos_iff.1 h2
  obtain ⟨hr, hi⟩ := Complex.arg_eq_zero_iff.1 b
  rw [Complex.normSq_apply, hi] at a
  have : z.re = 1 := by nlinarith
  exact Complex.ext (by simpa using this) (by simpa using hi)

/-- With tolerance 0, entries on the diagonal are 0 or 1, and the first one is 1. -/
theorem Fine.exact : ∀ (n : ℕ) (p : MNode), MCan n p → Fine 0 [] true p → ∀ x : Bits,
    (mval n p x x = 0 ∨ mval n p x x = 1) ∧ ((∀ q < n, x q = false) → mval n p x x = 1)
  | 0, _, _, _, x => ⟨.inr rfl, fun _ => rfl⟩
  | n + 1, .term, _, _, x => by
    have : mval (n + 1) .term x x = 1 := by rw [mval_term, if_pos fun _ _ => rfl]
    exact ⟨.inr this, fun _ => this⟩
  | n + 1, .node v w c, h, hf, x => by
    by_cases hv : v = n
    · subst hv
      rw [mval_node_top]
      rw [Fine, if_neg (by simp)] at hf
      obtain ⟨-, h1, f0, f3⟩ := hf
      obtain ⟨a, b, e⟩ := h1 rfl
      have w0 := eq_one_of a b
      cases hx : x v with
      | false =>
        have hc := (h.2.2.2 (false, false)).2 (by rw [w0]; exact one_ne_zero)
        have := Fine.exact v _ hc f0 x
        rw [w0, one_mul]
        exact ⟨this.1, fun hq => this.2 fun q h => hq q (by omega)⟩
      | true =>
        refine ⟨?_, fun hq => absurd (hx.symm.trans (hq v (by omega))) (by simp)⟩
        by_cases h0 : w (true, true) = 0
        · rw [h0, zero_mul]
          exact .inl rfl
        · obtain ⟨a, b⟩ := e (Complex.normSq_pos.2 h0)
          rw [eq_one_of a b, one_mul]
          exact (Fine.exact v _ ((h.2.2.2 (true, true)).2 h0) f3 x).1
    · have hvn : v < n := lt_of_le_of_ne (Nat.lt_succ_iff.1 h.1) hv
      have h' : MCan n (.node v w c) := ⟨hvn, h.2⟩
      rw [mval_skip h' le_rfl, if_pos rfl]
      have := Fine.exact n _ h' hf x
      exact ⟨this.1, fun hq => this.2 fun q h => hq q (by omega)⟩

end MQT.DD
