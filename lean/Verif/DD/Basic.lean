/-
Decision diagrams (DDs) with exact complex weights: nodes, edges, what they
represent, and the creation of normalised nodes.

Sources in /repo:
  include/mqt-core/dd/Node.hpp                 node layouts (successor arrays)
  include/mqt-core/dd/Edge.hpp, CachedEdge.hpp edges, `zero`, `one`, `isTerminal`, `isIdentity`
  src/dd/CachedEdge.cpp  36-88    vector normalisation
  src/dd/CachedEdge.cpp  94-150   matrix normalisation
  src/dd/Edge.cpp       111-175   vector normalisation on looked-up weights
  src/dd/Edge.cpp       295-352   matrix normalisation on looked-up weights
  include/mqt-core/dd/Package.hpp 472-510  `makeDDNode`
  include/mqt-core/dd/ComplexNumbers.hpp 122-129 `lookup(CachedEdge)`

Simplifications.
* Weights are exact complex numbers and the tolerance `RealNumber::eps` is 0, so
  `approximatelyZero` is `= 0` and looking a number up returns that number.
* A node is the tree of its successors; pointer equality of nodes in the unique
  table is equality of trees (this is what C11 proves about the unique table).
* Compute tables are caches of pure functions (C13) and are left out.
* Reference counting and memory management are modelled separately (C10-C15).
-/
import Mathlib.Analysis.SpecialFunctions.Pow.Real
import Mathlib.Analysis.Complex.Basic
import Mathlib.Data.Complex.BigOperators
import Verif.IR.Semantics

set_option autoImplicit false
set_option linter.unusedSectionVars false
set_option linter.unusedVariables false

noncomputable section

open Classical
open Complex (normSq)

namespace MQT.DD

open MQT.IR (Bits State)

/-- A DD node with successors indexed by `ι` (`Bool` for vectors, row and column
bit for matrices); `term` is the terminal (the null pointer in the code). -/
inductive Node (ι : Type) where
  | term
  | node (v : ℕ) (w : ι → ℂ) (c : ι → Node ι)

/-- `Edge<Node>` and `CachedEdge<Node>`: a node and a weight. -/
@[ext] structure Edge (ι : Type) where
  p : Node ι
  w : ℂ

/-- Row and column bit; the code's successor index is `2 * row + column`. -/
abbrev RC := Bool × Bool

abbrev VNode := Node Bool
abbrev MNode := Node RC
abbrev VEdge := Edge Bool
abbrev MEdge := Edge RC

namespace Edge
variable {ι : Type}

/-- `Edge::zero()`. -/
def zero : Edge ι := ⟨.term, 0⟩
/-- `Edge::one()`. -/
def one : Edge ι := ⟨.term, 1⟩
/-- `Edge::terminal(w)`. -/
def terminal (w : ℂ) : Edge ι := ⟨.term, w⟩

/-- `ComplexNumbers::lookup(const CachedEdge&)`: an edge of weight zero becomes
the zero terminal. -/
def lookup (e : Edge ι) : Edge ι := if e.w = 0 then ⟨.term, e.w⟩ else e

@[simp] theorem zero_w : (zero : Edge ι).w = 0 := rfl
@[simp] theorem zero_p : (zero : Edge ι).p = .term := rfl
@[simp] theorem one_w : (one : Edge ι).w = 1 := rfl
@[simp] theorem one_p : (one : Edge ι).p = .term := rfl
@[simp] theorem terminal_w (z : ℂ) : (terminal z : Edge ι).w = z := rfl
@[simp] theorem terminal_p (z : ℂ) : (terminal z : Edge ι).p = .term := rfl

end Edge

/-! ### What a DD represents -/

/-- Amplitude of the basis state `x` in a vector DD, as the product of the weights
along the path that `x` selects. -/
def vval : VNode → Bits → ℂ
  | .term, _ => 1
  | .node v w c, x => w (x v) * vval (c (x v)) x

/-- The vector represented by an edge. -/
def Edge.vec (e : VEdge) (x : Bits) : ℂ := e.w * vval e.p x

/-- The four blocks of a matrix DD on level `n`: those of the node if it sits on
this level, otherwise the blocks of `𝟙 ⊗ p` (skipped level). -/
def expand (n : ℕ) (p : MNode) (b : RC) : MEdge :=
  match p with
  | .term => if b.1 = b.2 then ⟨.term, 1⟩ else .zero
  | .node v w c =>
    if v = n then ⟨c b, w b⟩ else if b.1 = b.2 then ⟨.node v w c, 1⟩ else .zero

/-- Entry in row `x` and column `y` of the `2^n × 2^n` matrix represented by a
matrix DD node. -/
def mval : ℕ → MNode → Bits → Bits → ℂ
  | 0, _, _, _ => 1
  | n + 1, p, x, y =>
    (expand n p (x n, y n)).w * mval n (expand n p (x n, y n)).p x y

/-- The matrix represented by an edge, on `n` qubits. -/
def Edge.mat (e : MEdge) (n : ℕ) (x y : Bits) : ℂ := e.w * mval n e.p x y

/-! ### Vector normalisation -/

/-- `argMax` of the vector normalisation (`mag2[0] + eps >= mag2[1]`). -/
def varg (w : Bool → ℂ) : Bool := if normSq (w true) ≤ normSq (w false) then false else true

/-- CachedEdge.cpp 36-88: normalisation of a vector node. -/
def vNormalize (v : ℕ) (e : Bool → VEdge) : VEdge :=
  if (e false).w = 0 then
    if (e true).w = 0 then .zero
    else ⟨.node v (fun b => if b then 1 else 0) (fun b => if b then (e true).p else .term),
      (e true).w⟩
  else if (e true).w = 0 then
    ⟨.node v (fun b => if b then 0 else 1) (fun b => if b then .term else (e false).p),
      (e false).w⟩
  else
    let mag2 := fun b => normSq (e b).w
    let argMax := if mag2 true ≤ mag2 false then false else true
    let argMin := !argMax
    let norm := √(mag2 argMax + mag2 argMin)
    let maxMag := √(mag2 argMax)
    let commonFactor := norm / maxMag
    let topWeight := (e argMax).w * (commonFactor : ℝ)
    let maxWeight : ℂ := ((maxMag / norm : ℝ) : ℂ)
    let minWeight := (e argMin).w / topWeight
    ⟨.node v (fun b => if b = argMax then maxWeight else minWeight)
      (fun b => if b = argMin ∧ minWeight = 0 then .term else (e b).p), topWeight⟩

/-- Edge.cpp 111-175: normalisation of a vector node with looked-up weights; here
the successors of weight zero keep the pointer they came with. -/
def vNormalizeE (v : ℕ) (e : Bool → VEdge) : VEdge :=
  if (e false).w = 0 then
    if (e true).w = 0 then .zero
    else ⟨.node v (fun b => if b then 1 else (e false).w) (fun b => (e b).p), (e true).w⟩
  else if (e true).w = 0 then
    ⟨.node v (fun b => if b then (e true).w else 1) (fun b => (e b).p), (e false).w⟩
  else
    let mag2 := fun b => normSq (e b).w
    let argMax := if mag2 true ≤ mag2 false then false else true
    let argMin := !argMax
    let norm := √(mag2 argMax + mag2 argMin)
    let maxMag := √(mag2 argMax)
    let commonFactor := norm / maxMag
    let topWeight := (e argMax).w * (commonFactor : ℝ)
    let maxWeight : ℂ := ((maxMag / norm : ℝ) : ℂ)
    let minWeight := (e argMin).w / topWeight
    ⟨.node v (fun b => if b = argMax then maxWeight else minWeight)
      (fun b => if b = argMin ∧ minWeight = 0 then .term else (e b).p), topWeight⟩

/-- Package.hpp 472-510, instantiated for vectors. -/
def makeV (v : ℕ) (e : Bool → VEdge) : VEdge := vNormalize v e
/-- The same on edges with looked-up weights. -/
def makeVE (v : ℕ) (e : Bool → VEdge) : VEdge := vNormalizeE v e

/-- The factor taken out of a vector node with successor weights `w`. -/
def vtop (w : Bool → ℂ) : ℂ :=
  w (varg w) * ((√(normSq (w false) + normSq (w true)) / √(normSq (w (varg w))) : ℝ) : ℂ)

/-! ### Matrix normalisation -/

/-- The order in which the code visits the four successors. -/
def rcs : List RC := [(false, false), (false, true), (true, false), (true, true)]

/-- One round of the loop that determines `argMax` (CachedEdge.cpp 115-131). -/
def margStep (w : RC → ℂ) (acc : Option RC) (b : RC) : Option RC :=
  if w b = 0 then acc
  else match acc with
    | none => some b
    | some m => if normSq (w b) - normSq (w m) > 0 then some b else some m

/-- `argMax` of the matrix normalisation. -/
def marg (w : RC → ℂ) : Option RC := rcs.foldl (margStep w) none

/-- CachedEdge.cpp 94-150: normalisation of a matrix node.  (`none` for `argMax`
means that all weights are zero, which is the first case in the code.) -/
def mNormalize (v : ℕ) (e : RC → MEdge) : MEdge :=
  match marg (fun b => (e b).w) with
  | none => .zero
  | some m =>
    ⟨.node v
      (fun b => if (e b).w = 0 then 0 else if b = m then 1 else (e b).w / (e m).w)
      (fun b => if (e b).w = 0 then .term
        else if b = m then (e b).p
        else if (e b).w / (e m).w = 0 then .term else (e b).p),
      (e m).w⟩

/-- The identity test of `makeDDNode` (Package.hpp 494-499). -/
def IdLike (w : RC → ℂ) (c : RC → MNode) : Prop :=
  c (false, false) = c (true, true) ∧ w (false, false) = 1 ∧ w (false, true) = 0 ∧
    w (true, false) = 0 ∧ w (true, true) = 1

/-- Removal of identity-like nodes (Package.hpp 490-505). -/
def skipId (r : MEdge) : MEdge :=
  match r.p with
  | .term => r
  | .node v w c => if IdLike w c then ⟨c (false, false), r.w⟩ else r

/-- Package.hpp 472-510, instantiated for matrices. -/
def makeM (v : ℕ) (e : RC → MEdge) : MEdge := skipId (mNormalize v e)

/-- The factor taken out of a matrix node with successor weights `w`. -/
def mtop (w : RC → ℂ) : ℂ := match marg w with | none => 0 | some m => w m

/-! ### The shape invariant of the package -/

/-- A vector node on top of `n` qubits as the package builds it: no skipped levels,
normalised weights, zero weights point to the terminal. -/
def VCan : ℕ → VNode → Prop
  | n, .term => n = 0
  | n, .node v w c => n = v + 1 ∧ vtop w = 1 ∧
      ∀ b, (w b = 0 → c b = .term) ∧ (w b ≠ 0 → VCan v (c b))

/-- A vector edge as the package hands it out. -/
def VECan (n : ℕ) (e : VEdge) : Prop := (e.w = 0 → e.p = .term) ∧ (e.w ≠ 0 → VCan n e.p)
/-- A vector edge as it occurs during a computation (weight zero, any node). -/
def VOk (n : ℕ) (e : VEdge) : Prop := e.w ≠ 0 → VCan n e.p

/-- A matrix node with all levels below `n`: normalised weights, zero weights point
to the terminal, identity-like nodes are skipped. -/
def MCan : ℕ → MNode → Prop
  | _, .term => True
  | n, .node v w c => v < n ∧ mtop w = 1 ∧ ¬ IdLike w c ∧
      ∀ b, (w b = 0 → c b = .term) ∧ (w b ≠ 0 → MCan v (c b))

def MECan (n : ℕ) (e : MEdge) : Prop := (e.w = 0 → e.p = .term) ∧ (e.w ≠ 0 → MCan n e.p)
def MOk (n : ℕ) (e : MEdge) : Prop := e.w ≠ 0 → MCan n e.p

theorem VECan.ok {n : ℕ} {e : VEdge} (h : VECan n e) : VOk n e := h.2
theorem MECan.ok {n : ℕ} {e : MEdge} (h : MECan n e) : MOk n e := h.2

theorem VOk.lookup {n : ℕ} {e : VEdge} (h : VOk n e) : VECan n e.lookup := by
  unfold Edge.lookup
  split_ifs with h0
  · exact ⟨fun _ => rfl, fun h' => absurd h0 h'⟩
  · exact ⟨fun h' => absurd h' h0, h⟩

theorem MOk.lookup {n : ℕ} {e : MEdge} (h : MOk n e) : MECan n e.lookup := by
  unfold Edge.lookup
  split_ifs with h0
  · exact ⟨fun _ => rfl, fun h' => absurd h0 h'⟩
  · exact ⟨fun h' => absurd h' h0, h⟩

theorem lookup_vec (e : VEdge) (x : Bits) : e.lookup.vec x = e.vec x := by
  unfold Edge.lookup
  split_ifs with h0
  · simp [Edge.vec, h0]
  · rfl

theorem lookup_mat (e : MEdge) (n : ℕ) (x y : Bits) : e.lookup.mat n x y = e.mat n x y := by
  unfold Edge.lookup
  split_ifs with h0
  · simp [Edge.mat, h0]
  · rfl

theorem VOk.zero (n : ℕ) : VOk n .zero := fun h => absurd rfl h
theorem MOk.zero (n : ℕ) : MOk n .zero := fun h => absurd rfl h
theorem VECan.zero (n : ℕ) : VECan n .zero := ⟨fun _ => rfl, fun h => absurd rfl h⟩
theorem MECan.zero (n : ℕ) : MECan n .zero := ⟨fun _ => rfl, fun h => absurd rfl h⟩
@[simp] theorem zero_vec (x : Bits) : (Edge.zero : VEdge).vec x = 0 := by simp [Edge.vec]
@[simp] theorem zero_mat (n : ℕ) (x y : Bits) : (Edge.zero : MEdge).mat n x y = 0 := by
  simp [Edge.mat]

theorem VOk.smul {n : ℕ} {e : VEdge} (h : VOk n e) (z : ℂ) : VOk n ⟨e.p, z * e.w⟩ :=
  fun h' => h (right_ne_zero_of_mul h')
theorem MOk.smul {n : ℕ} {e : MEdge} (h : MOk n e) (z : ℂ) : MOk n ⟨e.p, z * e.w⟩ :=
  fun h' => h (right_ne_zero_of_mul h')
theorem MOk.mono {n m : ℕ} (hnm : n ≤ m) : ∀ {p : MNode}, MCan n p → MCan m p
  | .term, _ => trivial
  | .node _ _ _, ⟨a, b, c, d⟩ => ⟨lt_of_lt_of_le a hnm, b, c, d⟩

/-! ### Properties of the factors -/

section Top

theorem normSq_ne_zero {z : ℂ} (h : z ≠ 0) : normSq z ≠ 0 := fun h' => h (Complex.normSq_eq_zero.1 h')
theorem normSq_pos' {z : ℂ} (h : z ≠ 0) : 0 < normSq z := Complex.normSq_pos.2 h

theorem varg_max (w : Bool → ℂ) (b : Bool) : normSq (w b) ≤ normSq (w (varg w)) := by
  unfold varg
  split_ifs with h
  · cases b
    · exact le_refl _
    · exact h
  · cases b
    · exact le_of_not_ge h
    · exact le_refl _

theorem varg_ne {w : Bool → ℂ} {b : Bool} (h : w b ≠ 0) : w (varg w) ≠ 0 := by
  intro h0
  have := varg_max w b
  rw [h0, map_zero] at this
  exact absurd (normSq_pos' h) (not_lt.2 this)

theorem varg_smul (w : Bool → ℂ) {z : ℂ} (hz : z ≠ 0) : varg (fun b => z * w b) = varg w := by
  unfold varg
  simp only [map_mul]
  have : normSq z * normSq (w true) ≤ normSq z * normSq (w false) ↔
      normSq (w true) ≤ normSq (w false) := mul_le_mul_iff_right₀ (normSq_pos' hz)
  simp only [this]

theorem vtop_smul (w : Bool → ℂ) (z : ℂ) : vtop (fun b => z * w b) = z * vtop w := by
  by_cases hz : z = 0
  · subst hz; simp [vtop]
  · unfold vtop
    rw [varg_smul w hz]
    simp only [map_mul]
    rw [← mul_add, Real.sqrt_mul (Complex.normSq_nonneg z), Real.sqrt_mul (Complex.normSq_nonneg z),
      mul_div_mul_left _ _ (Real.sqrt_ne_zero'.2 (normSq_pos' hz)), mul_assoc]

theorem vtop_normSq (w : Bool → ℂ) : normSq (vtop w) = normSq (w false) + normSq (w true) := by
  unfold vtop
  rw [map_mul, Complex.normSq_ofReal]
  have hnn : 0 ≤ normSq (w false) + normSq (w true) :=
    add_nonneg (Complex.normSq_nonneg _) (Complex.normSq_nonneg _)
  by_cases h : w (varg w) = 0
  · have h1 := varg_max w false
    have h2 := varg_max w true
    rw [h, map_zero] at h1 h2
    have h1' := le_antisymm h1 (Complex.normSq_nonneg _)
    have h2' := le_antisymm h2 (Complex.normSq_nonneg _)
    rw [h, h1', h2']; simp
  · rw [div_mul_div_comm, Real.mul_self_sqrt hnn, Real.mul_self_sqrt (Complex.normSq_nonneg _)]
    field_simp [normSq_ne_zero h]

theorem vtop_eq_zero (w : Bool → ℂ) : vtop w = 0 ↔ ∀ b, w b = 0 := by
  constructor
  · intro h b
    have := vtop_normSq w
    rw [h, map_zero] at this
    have h1 := Complex.normSq_nonneg (w false)
    have h2 := Complex.normSq_nonneg (w true)
    apply Complex.normSq_eq_zero.1
    cases b <;> linarith
  · intro h
    simp [vtop, h]

/-- The larger weight of a normalised vector node is a positive real number. -/
theorem vtop_one_max {w : Bool → ℂ} (h : vtop w = 1) :
    w (varg w) = ((√(normSq (w (varg w))) : ℝ) : ℂ) ∧ 0 < √(normSq (w (varg w))) := by
  have hs : normSq (w false) + normSq (w true) = 1 := by rw [← vtop_normSq, h, map_one]
  have hne : w (varg w) ≠ 0 := by
    intro h0; simp [vtop, h0] at h
  have hp := Real.sqrt_pos.2 (normSq_pos' hne)
  refine ⟨?_, hp⟩
  unfold vtop at h
  rw [hs, Real.sqrt_one] at h
  have : ((√(normSq (w (varg w))) : ℝ) : ℂ) ≠ 0 := by exact_mod_cast hp.ne'
  push_cast at h
  field_simp at h
  exact h

theorem margStep_smul (w : RC → ℂ) {z : ℂ} (hz : z ≠ 0) (acc : Option RC) (b : RC) :
    margStep (fun b => z * w b) acc b = margStep w acc b := by
  unfold margStep
  simp only [mul_eq_zero, hz, false_or]
  split_ifs with h
  · rfl
  · cases acc with
    | none => rfl
    | some m =>
      simp only [map_mul, ← mul_sub]
      have : normSq z * (normSq (w b) - normSq (w m)) > 0 ↔ normSq (w b) - normSq (w m) > 0 :=
        mul_pos_iff_of_pos_left (normSq_pos' hz)
      simp only [this]

theorem marg_smul (w : RC → ℂ) {z : ℂ} (hz : z ≠ 0) : marg (fun b => z * w b) = marg w := by
  unfold marg
  have : margStep (fun b => z * w b) = margStep w := by
    funext acc b; exact margStep_smul w hz acc b
  rw [this]

theorem mtop_smul (w : RC → ℂ) (z : ℂ) : mtop (fun b => z * w b) = z * mtop w := by
  by_cases hz : z = 0
  · subst hz
    unfold mtop
    simp only [zero_mul]
    split <;> rfl
  · unfold mtop
    rw [marg_smul w hz]
    split
    · simp
    · rfl

/-- What the `argMax` loop has established after some rounds. -/
theorem marg_fold (w : RC → ℂ) (l : List RC) (acc : Option RC)
    (hacc : ∀ m, acc = some m → w m ≠ 0) :
    (∀ m, l.foldl (margStep w) acc = some m → w m ≠ 0 ∧
      (∀ b ∈ l, normSq (w b) ≤ normSq (w m)) ∧
      (∀ b, acc = some b → normSq (w b) ≤ normSq (w m))) ∧
    (l.foldl (margStep w) acc = none → acc = none ∧ ∀ b ∈ l, w b = 0) := by
  induction l generalizing acc with
  | nil =>
    refine ⟨fun m h => ⟨hacc m h, by simp, fun b hb => ?_⟩, fun h => ⟨h, by simp⟩⟩
    have : some b = some m := hb ▸ h
    cases this; exact le_refl _
  | cons a l ih =>
    rw [List.foldl_cons]
    have hstep : ∀ m, margStep w acc a = some m → w m ≠ 0 := by
      intro m hm
      unfold margStep at hm
      split_ifs at hm with h
      · exact hacc m hm
      · cases acc with
        | none => cases hm; exact h
        | some m' =>
          simp only at hm
          split_ifs at hm
          · cases hm; exact h
          · cases hm; exact hacc _ rfl
    obtain ⟨h1, h2⟩ := ih (margStep w acc a) hstep
    constructor
    · intro m hm
      obtain ⟨hm1, hm2, hm3⟩ := h1 m hm
      have key : normSq (w a) ≤ normSq (w m) ∧ ∀ b, acc = some b → normSq (w b) ≤ normSq (w m) := by
        unfold margStep at hm3
        split_ifs at hm3 with h
        · refine ⟨?_, hm3⟩
          rw [h, map_zero]; exact Complex.normSq_nonneg _
        · cases acc with
          | none => exact ⟨hm3 a rfl, by simp⟩
          | some m' =>
            simp only at hm3
            split_ifs at hm3 with h'
            · refine ⟨hm3 a rfl, fun b hb => ?_⟩
              cases hb
              have := hm3 a rfl
              linarith
            · have := hm3 m' rfl
              refine ⟨by linarith, fun b hb => ?_⟩
              cases hb; exact this
      refine ⟨hm1, ?_, key.2⟩
      intro b hb
      rcases List.mem_cons.1 hb with rfl | hb
      · exact key.1
      · exact hm2 b hb
    · intro h
      obtain ⟨h3, h4⟩ := h2 h
      unfold margStep at h3
      split_ifs at h3 with h0
      · exact ⟨h3, fun b hb => by
          rcases List.mem_cons.1 hb with rfl | hb
          · exact h0
          · exact h4 b hb⟩
      · cases acc with
        | none => cases h3
        | some m' =>
          simp only at h3
          split_ifs at h3

theorem mem_rcs (b : RC) : b ∈ rcs := by
  obtain ⟨b1, b2⟩ := b
  cases b1 <;> cases b2 <;> simp [rcs]

theorem marg_some {w : RC → ℂ} {m : RC} (h : marg w = some m) :
    w m ≠ 0 ∧ ∀ b, normSq (w b) ≤ normSq (w m) := by
  obtain ⟨h1, h2, _⟩ := (marg_fold w rcs none (by simp)).1 m h
  exact ⟨h1, fun b => h2 b (mem_rcs b)⟩

theorem marg_none {w : RC → ℂ} : marg w = none ↔ ∀ b, w b = 0 := by
  constructor
  · intro h b
    exact ((marg_fold w rcs none (by simp)).2 h).2 b (mem_rcs b)
  · intro h
    cases hm : marg w with
    | none => rfl
    | some m => exact absurd (h m) (marg_some hm).1

theorem mtop_eq_zero (w : RC → ℂ) : mtop w = 0 ↔ ∀ b, w b = 0 := by
  unfold mtop
  constructor
  · intro h
    cases hm : marg w with
    | none => exact marg_none.1 hm
    | some m => rw [hm] at h; exact absurd h (marg_some hm).1
  · intro h
    rw [marg_none.2 h]

/-- All weights of a normalised matrix node have modulus at most one, and one of
them is one. -/
theorem mtop_one_max {w : RC → ℂ} (h : mtop w = 1) :
    (∃ m, w m = 1) ∧ ∀ b, normSq (w b) ≤ 1 := by
  unfold mtop at h
  cases hm : marg w with
  | none => rw [hm] at h; exact absurd h (by simp)
  | some m =>
    rw [hm] at h
    simp only at h
    refine ⟨⟨m, h⟩, fun b => ?_⟩
    have := (marg_some hm).2 b
    rwa [h, map_one] at this

end Top

/-! ### The code's normalisation divides by the factor -/

theorem vNormalize_eq (v : ℕ) (e : Bool → VEdge) :
    vNormalize v e =
      if vtop (fun b => (e b).w) = 0 then .zero
      else ⟨.node v (fun b => (e b).w / vtop (fun b => (e b).w))
        (fun b => if (e b).w = 0 then .term else (e b).p), vtop (fun b => (e b).w)⟩ := by
  by_cases hz : vtop (fun b => (e b).w) = 0
  · rw [if_pos hz]
    have : ∀ b, (e b).w = 0 := (vtop_eq_zero _).1 hz
    unfold vNormalize
    rw [if_pos (this false), if_pos (this true)]
  · rw [if_neg hz]
    unfold vNormalize
    by_cases h0 : (e false).w = 0
    · rw [if_pos h0]
      by_cases h1 : (e true).w = 0
      · exact absurd ((vtop_eq_zero _).2 (fun b => by cases b <;> assumption)) hz
      · have ht : vtop (fun b => (e b).w) = (e true).w := by
          have ha : varg (fun b => (e b).w) = true := by
            unfold varg
            rw [if_neg]
            show ¬ normSq (e true).w ≤ normSq (e false).w
            rw [h0, map_zero, not_le]
            exact normSq_pos' h1
          unfold vtop
          rw [ha]
          simp only [h0, map_zero, zero_add]
          rw [div_self (Real.sqrt_ne_zero'.2 (normSq_pos' h1))]
          simp
        rw [if_neg h1, ht]
        ext
        · simp only [Node.node.injEq, true_and]
          constructor
          · funext b
            cases b
            · simp [h0]
            · simp [h1]
          · funext b
            cases b
            · simp [h0]
            · simp [h1]
        · rfl
    · rw [if_neg h0]
      by_cases h1 : (e true).w = 0
      · have ht : vtop (fun b => (e b).w) = (e false).w := by
          have ha : varg (fun b => (e b).w) = false := by
            unfold varg
            rw [if_pos]
            show normSq (e true).w ≤ normSq (e false).w
            rw [h1, map_zero]
            exact Complex.normSq_nonneg _
          unfold vtop
          rw [ha]
          simp only [h1, map_zero, add_zero]
          rw [div_self (Real.sqrt_ne_zero'.2 (normSq_pos' h0))]
          simp
        rw [if_pos h1, ht]
        ext
        · simp only [Node.node.injEq, true_and]
          constructor
          · funext b
            cases b
            · simp [h0]
            · simp [h1]
          · funext b
            cases b
            · simp [h0]
            · simp [h1]
        · rfl
      · rw [if_neg h1]
        have hall : ∀ b, (e b).w ≠ 0 := fun b => by cases b <;> assumption
        have harg : (if normSq (e true).w ≤ normSq (e false).w then false else true)
            = varg (fun b => (e b).w) := rfl
        simp only [harg]
        set a := varg (fun b => (e b).w) with ha
        have hsum : normSq (e a).w + normSq (e (!a)).w
            = normSq (e false).w + normSq (e true).w := by
          cases a
          · rfl
          · exact add_comm _ _
        have htop : (e a).w * ((√(normSq (e a).w + normSq (e (!a)).w) / √(normSq (e a).w) : ℝ) : ℂ)
            = vtop (fun b => (e b).w) := by
          unfold vtop
          rw [hsum, ← ha]
        have hpos : 0 < normSq (e a).w + normSq (e (!a)).w :=
          add_pos_of_pos_of_nonneg (normSq_pos' (hall a)) (Complex.normSq_nonneg _)
        rw [htop]
        ext
        · simp only [Node.node.injEq, true_and]
          constructor
          · funext b
            by_cases hb : b = a
            · subst hb
              rw [if_pos rfl, ← htop]
              have h1 : (√(normSq (e a).w + normSq (e (!a)).w) : ℂ) ≠ 0 := by
                exact_mod_cast (Real.sqrt_pos.2 hpos).ne'
              have h2 : (√(normSq (e a).w) : ℂ) ≠ 0 := by
                exact_mod_cast (Real.sqrt_pos.2 (normSq_pos' (hall a))).ne'
              have h3 := hall a
              push_cast
              field_simp
            · have hb' : b = !a := Bool.eq_not_of_ne hb
              rw [if_neg hb, hb']
          · funext b
            rw [if_neg (hall b), if_neg]
            rintro ⟨_, h⟩
            rw [div_eq_zero_iff] at h
            rcases h with h | h
            · exact hall _ h
            · exact hz h
        · rfl

/-- On edges as the package hands them out both normalisations agree. -/
theorem vNormalizeE_eq (v : ℕ) (e : Bool → VEdge) (h : ∀ b, (e b).w = 0 → (e b).p = .term) :
    vNormalizeE v e = vNormalize v e := by
  unfold vNormalizeE vNormalize
  by_cases h0 : (e false).w = 0
  · rw [if_pos h0, if_pos h0]
    by_cases h1 : (e true).w = 0
    · rw [if_pos h1, if_pos h1]
    · rw [if_neg h1, if_neg h1]
      ext
      · simp only [Node.node.injEq, true_and]
        exact ⟨by funext b; cases b <;> simp [h0], by funext b; cases b <;> simp [h false h0]⟩
      · rfl
  · rw [if_neg h0, if_neg h0]
    by_cases h1 : (e true).w = 0
    · rw [if_pos h1, if_pos h1]
      ext
      · simp only [Node.node.injEq, true_and]
        exact ⟨by funext b; cases b <;> simp [h1], by funext b; cases b <;> simp [h true h1]⟩
      · rfl
    · rw [if_neg h1, if_neg h1]

theorem mNormalize_eq (v : ℕ) (e : RC → MEdge) :
    mNormalize v e =
      if mtop (fun b => (e b).w) = 0 then .zero
      else ⟨.node v (fun b => (e b).w / mtop (fun b => (e b).w))
        (fun b => if (e b).w = 0 then .term else (e b).p), mtop (fun b => (e b).w)⟩ := by
  unfold mNormalize mtop
  cases hm : marg (fun b => (e b).w) with
  | none => simp
  | some m =>
    obtain ⟨h1, h2⟩ := marg_some hm
    simp only at h1 ⊢
    rw [if_neg h1]
    ext
    · simp only [Node.node.injEq, true_and]
      constructor
      · funext b
        by_cases hb : (e b).w = 0
        · simp [hb]
        · rw [if_neg hb]
          by_cases hbm : b = m
          · subst hbm; simp [h1]
          · rw [if_neg hbm]
      · funext b
        by_cases hb : (e b).w = 0
        · simp [hb]
        · simp [hb, h1]
    · rfl

/-! ### Node creation -/

section Make

theorem makeV_vec (v : ℕ) (e : Bool → VEdge) (x : Bits) :
    (makeV v e).vec x = (e (x v)).vec x := by
  unfold makeV
  rw [vNormalize_eq]
  split_ifs with h
  · have : (e (x v)).w = 0 := (vtop_eq_zero _).1 h (x v)
    simp [Edge.vec, this]
  · simp only [Edge.vec, vval]
    by_cases h0 : (e (x v)).w = 0
    · simp [h0]
    · rw [if_neg h0]; field_simp

theorem makeV_can {n : ℕ} {e : Bool → VEdge} (h : ∀ b, VOk n (e b)) :
    VECan (n + 1) (makeV n e) := by
  unfold makeV
  rw [vNormalize_eq]
  split_ifs with h0
  · exact VECan.zero _
  · refine ⟨fun h' => absurd h' h0, fun _ => ⟨rfl, ?_, ?_⟩⟩
    · have : (fun b => (e b).w / vtop (fun b => (e b).w))
          = fun b => (vtop (fun b => (e b).w))⁻¹ * (e b).w := by
        funext b; rw [div_eq_mul_inv, mul_comm]
      rw [this, vtop_smul, inv_mul_cancel₀ h0]
    · intro b
      by_cases hb : (e b).w = 0
      · simp [hb]
      · refine ⟨fun h' => absurd h' (div_ne_zero hb h0), fun _ => ?_⟩
        simp only [if_neg hb]
        exact h b hb

theorem expand_skip {n m : ℕ} {p : MNode} (h : MCan n p) (hm : n ≤ m) (b : RC) :
    expand m p b = if b.1 = b.2 then ⟨p, 1⟩ else .zero := by
  cases p with
  | term => rfl
  | node v w c =>
    obtain ⟨h1, _⟩ := h
    unfold expand
    simp only
    rw [if_neg (by omega)]

theorem mval_skip {n m : ℕ} {p : MNode} (h : MCan n p) (hm : n ≤ m) (x y : Bits) :
    mval (m + 1) p x y = if x m = y m then mval m p x y else 0 := by
  rw [mval, expand_skip h hm]
  simp only
  split_ifs with h' <;> simp

/-- The four blocks again represent a matrix, and are in the package's form. -/
theorem MCan.block {n : ℕ} {p : MNode} (h : MCan (n + 1) p) (b : RC) :
    MECan n (expand n p b) := by
  cases p with
  | term =>
    unfold expand
    split_ifs
    · exact ⟨fun h' => rfl, fun _ => trivial⟩
    · exact MECan.zero _
  | node v w c =>
    obtain ⟨h1, h2, h3, h4⟩ := h
    unfold expand
    simp only
    by_cases hv : v = n
    · rw [if_pos hv]; subst hv; exact h4 b
    · rw [if_neg hv]
      split_ifs
      · exact ⟨fun h' => absurd h' one_ne_zero, fun _ => ⟨by omega, h2, h3, h4⟩⟩
      · exact MECan.zero _

theorem mat_succ (e : MEdge) (n : ℕ) (x y : Bits) :
    e.mat (n + 1) x y = e.w * (expand n e.p (x n, y n)).mat n x y := rfl

theorem mNormalize_mat (n : ℕ) (e : RC → MEdge) (x y : Bits) :
    (mNormalize n e).mat (n + 1) x y = (e (x n, y n)).mat n x y := by
  rw [mNormalize_eq]
  split_ifs with h
  · have : (e (x n, y n)).w = 0 := (mtop_eq_zero _).1 h (x n, y n)
    simp [Edge.mat, this]
  · rw [mat_succ]
    simp only [Edge.mat, expand, if_true]
    by_cases h0 : (e (x n, y n)).w = 0
    · simp [h0]
    · rw [if_neg h0]; field_simp

theorem IdLike.w_eq {w : RC → ℂ} {c : RC → MNode} (h : IdLike w c) (b : RC) :
    w b = if b.1 = b.2 then 1 else 0 := by
  obtain ⟨_, h1, h2, h3, h4⟩ := h
  obtain ⟨b1, b2⟩ := b
  cases b1 <;> cases b2 <;> simp [*]

theorem skipId_mat {n : ℕ} {r : MEdge}
    (hr : ∀ v w c, r.p = .node v w c → v = n ∧ ∀ b, w b ≠ 0 → MCan n (c b)) (x y : Bits) :
    (skipId r).mat (n + 1) x y = r.mat (n + 1) x y := by
  unfold skipId
  cases hp : r.p with
  | term => rfl
  | node v w c =>
    simp only
    split_ifs with hid
    · obtain ⟨hv, hc⟩ := hr v w c hp
      subst hv
      have hcan : MCan v (c (false, false)) := hc _ (by rw [hid.2.1]; exact one_ne_zero)
      rw [mat_succ, mat_succ, hp]
      simp only [Edge.mat]
      rw [expand_skip hcan le_rfl]
      simp only [expand, if_true]
      rw [hid.w_eq]
      simp only
      by_cases hxy : x v = y v
      · rw [if_pos hxy, if_pos hxy, ← hxy]
        cases hx : x v
        · rfl
        · rw [hid.1]
      · rw [if_neg hxy, if_neg hxy]; simp
    · rfl

theorem makeM_mat {n : ℕ} {e : RC → MEdge} (h : ∀ b, MOk n (e b)) (x y : Bits) :
    (makeM n e).mat (n + 1) x y = (e (x n, y n)).mat n x y := by
  unfold makeM
  rw [skipId_mat, mNormalize_mat]
  intro v w c hp
  rw [mNormalize_eq] at hp
  split_ifs at hp with h0
  · cases hp
  · simp only [Node.node.injEq] at hp
    obtain ⟨rfl, rfl, rfl⟩ := hp
    refine ⟨rfl, fun b hb => ?_⟩
    have hb' : (e b).w ≠ 0 := fun h' => hb (by simp [h'])
    simp only [if_neg hb']
    exact h b hb'

theorem makeM_can {n : ℕ} {e : RC → MEdge} (h : ∀ b, MOk n (e b)) :
    MECan (n + 1) (makeM n e) := by
  unfold makeM
  rw [mNormalize_eq]
  by_cases h0 : mtop (fun b => (e b).w) = 0
  · rw [if_pos h0]; exact MECan.zero _
  · rw [if_neg h0]
    have hcan : ∀ b, (e b).w ≠ 0 → MCan n (if (e b).w = 0 then .term else (e b).p) := by
      intro b hb
      rw [if_neg hb]; exact h b hb
    unfold skipId
    simp only
    by_cases hid : IdLike (fun b => (e b).w / mtop fun b => (e b).w)
        (fun b => if (e b).w = 0 then Node.term else (e b).p)
    · rw [if_pos hid]
      refine ⟨fun h' => absurd h' h0, fun _ => ?_⟩
      have h1 : (e (false, false)).w ≠ 0 := by
        intro h'
        have := hid.2.1
        simp [h'] at this
      exact MOk.mono (Nat.le_succ n) (hcan _ h1)
    · rw [if_neg hid]
      refine ⟨fun h' => absurd h' h0, fun _ => ⟨Nat.lt_succ_self n, ?_, hid, ?_⟩⟩
      · have : (fun b => (e b).w / mtop (fun b => (e b).w))
            = fun b => (mtop (fun b => (e b).w))⁻¹ * (e b).w := by
          funext b; rw [div_eq_mul_inv, mul_comm]
        rw [this, mtop_smul, inv_mul_cancel₀ h0]
      · intro b
        by_cases hb : (e b).w = 0
        · simp [hb]
        · exact ⟨fun h' => absurd h' (div_ne_zero hb h0), fun _ => hcan b hb⟩

end Make

/-! ### Dependence on the qubits -/

theorem vval_congr {n : ℕ} {p : VNode} (h : VCan n p) {x y : Bits} (hxy : ∀ q < n, x q = y q) :
    vval p x = vval p y := by
  induction p generalizing n with
  | term => rfl
  | node v w c ih =>
    obtain ⟨rfl, _, h3⟩ := h
    rw [vval, vval, hxy v (Nat.lt_succ_self v)]
    by_cases hw : w (y v) = 0
    · simp [hw]
    · rw [ih (y v) ((h3 (y v)).2 hw) (fun q hq => hxy q (by omega))]

theorem mval_congr (n : ℕ) (p : MNode) {x y x' y' : Bits} (hx : ∀ q < n, x q = x' q)
    (hy : ∀ q < n, y q = y' q) : mval n p x y = mval n p x' y' := by
  induction n generalizing p with
  | zero => rfl
  | succ n ih =>
    rw [mval, mval, hx n (Nat.lt_succ_self n), hy n (Nat.lt_succ_self n),
      ih _ (fun q hq => hx q (by omega)) (fun q hq => hy q (by omega))]

/-- A terminal matrix node is the identity on any number of qubits. -/
theorem mval_term (n : ℕ) (x y : Bits) :
    mval n .term x y = if ∀ q < n, x q = y q then 1 else 0 := by
  induction n with
  | zero => simp [mval]
  | succ n ih =>
    rw [mval_skip (n := 0) (p := .term) trivial (Nat.zero_le n), ih]
    by_cases h : x n = y n
    · rw [if_pos h]
      congr 1
      apply propext
      constructor
      · intro h' q hq
        rcases Nat.lt_succ_iff_lt_or_eq.1 hq with h1 | rfl
        · exact h' q h1
        · exact h
      · intro h' q hq; exact h' q (by omega)
    · rw [if_neg h, if_neg (fun h' => h (h' n (Nat.lt_succ_self n)))]

/-- On more qubits than the DD mentions, the matrix is extended by the identity. -/
theorem mval_lift {n : ℕ} {p : MNode} (h : MCan n p) (k : ℕ) (x y : Bits) :
    mval (n + k) p x y = if ∀ q, n ≤ q → q < n + k → x q = y q then mval n p x y else 0 := by
  induction k with
  | zero =>
    rw [Nat.add_zero, if_pos]
    intro q h1 h2; omega
  | succ k ih =>
    rw [← Nat.add_assoc, mval_skip h (Nat.le_add_right n k), ih]
    by_cases hk : x (n + k) = y (n + k)
    · rw [if_pos hk]
      congr 1
      apply propext
      constructor
      · intro h' q h1 h2
        rcases Nat.lt_succ_iff_lt_or_eq.1 (show q < (n + k) + 1 by omega) with h3 | rfl
        · exact h' q h1 h3
        · exact hk
      · intro h' q h1 h2; exact h' q h1 (by omega)
    · rw [if_neg hk, if_neg (fun h' => hk (h' (n + k) (by omega) (by omega)))]

end MQT.DD
