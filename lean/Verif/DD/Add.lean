/-
Addition of decision diagrams and the element-wise magnitude sum.

Sources in /repo:
  include/mqt-core/dd/Package.hpp 733-746  `add`
  include/mqt-core/dd/Package.hpp 762-849  `add2`
  include/mqt-core/dd/Package.hpp 863-937  `addMagnitudes`

Both recursions have the same shape: a prefix that answers when an operand is zero
or both operands point to the same node, and otherwise a descent into the
successors.  The model has one recursion (`recV` for vectors, `recM` for matrices)
parametrised by that prefix.  The number of remaining levels is `var + 1`; running
out of levels, or reading the successors of the terminal (a null pointer), is
undefined behaviour and modelled as `none`.
-/
import Verif.DD.Basic

set_option autoImplicit false

noncomputable section

open Classical
open Complex (normSq)

namespace MQT.DD

open MQT.IR (Bits State)

/-- Run one computation per successor; undefined if one of them is. -/
def collect {ι α : Type} (f : ι → Option α) : Option (ι → α) :=
  if h : ∀ i, (f i).isSome then some (fun i => (f i).get (h i)) else none

theorem collect_some {ι α : Type} {f : ι → Option α} {g : ι → α} (h : ∀ i, f i = some (g i)) :
    collect f = some g := by
  unfold collect
  rw [dif_pos (fun i => by rw [h i]; rfl)]
  congr 1
  funext i
  simp [h i]

/-- The prefix of `add2` (Package.hpp 764-777). -/
def addPre {ι : Type} (x y : Edge ι) : Option (Edge ι) :=
  if x.w = 0 then if y.w = 0 then some .zero else some y
  else if y.w = 0 then some x
  else if x.p = y.p then some ⟨x.p, x.w + y.w⟩
  else none

/-- The prefix of `addMagnitudes` (Package.hpp 865-880). -/
def magPre {ι : Type} (x y : Edge ι) : Option (Edge ι) :=
  if x.w = 0 then if y.w = 0 then some .zero else some ⟨y.p, ((√(normSq y.w) : ℝ) : ℂ)⟩
  else if y.w = 0 then some ⟨x.p, ((√(normSq x.w) : ℝ) : ℂ)⟩
  else if x.p = y.p then some ⟨x.p, ((√(normSq x.w + normSq y.w) : ℝ) : ℂ)⟩
  else none

/-- A weighted successor of a vector edge (Package.hpp 806-811, 833-838). -/
def vsucc (x : VEdge) (b : Bool) : Option VEdge :=
  match x.p with
  | .term => none
  | .node _ w c => some ⟨c b, if w b = 0 then 0 else x.w * w b⟩

/-- The descent of `add2` and `addMagnitudes` for vectors. -/
def recV (pre : VEdge → VEdge → Option VEdge) : ℕ → VEdge → VEdge → Option VEdge
  | 0, x, y => pre x y
  | n + 1, x, y =>
    match pre x y with
    | some r => some r
    | none =>
      (collect fun b =>
        (vsucc x b).bind fun e1 => (vsucc y b).bind fun e2 => recV pre n e1 e2).map (makeV n)

/-- A weighted successor of a matrix edge with skipped levels (Package.hpp 789-805,
814-832); `n` is `var`. -/
def msucc (n : ℕ) (x : MEdge) (b : RC) : MEdge :=
  match x.p with
  | .term => if b.1 = b.2 then x else .zero
  | .node v w c =>
    if v < n then if b.1 = b.2 then x else .zero
    else ⟨c b, if w b = 0 then 0 else x.w * w b⟩

/-- The descent of `add2` and `addMagnitudes` for matrices. -/
def recM (pre : MEdge → MEdge → Option MEdge) : ℕ → MEdge → MEdge → Option MEdge
  | 0, x, y => pre x y
  | n + 1, x, y =>
    match pre x y with
    | some r => some r
    | none =>
      (collect fun b => recM pre n (msucc n x b) (msucc n y b)).map (makeM n)

/-- `add2` on vectors; the first argument is `var + 1`. -/
def vadd2 : ℕ → VEdge → VEdge → Option VEdge := recV addPre
/-- `add2` on matrices. -/
def madd2 : ℕ → MEdge → MEdge → Option MEdge := recM addPre
/-- `addMagnitudes` on vectors. -/
def vaddMag : ℕ → VEdge → VEdge → Option VEdge := recV magPre
/-- `addMagnitudes` on matrices. -/
def maddMag : ℕ → MEdge → MEdge → Option MEdge := recM magPre

/-- The level of a node, 0 for the terminal (`Qubit var{}`). -/
def Node.var {ι : Type} : Node ι → ℕ
  | .term => 0
  | .node v _ _ => v

/-- The start level of `add` and `multiply` (Package.hpp 734-740, 1080-1086). -/
def topVar {ι κ : Type} (x : Edge ι) (y : Edge κ) : ℕ :=
  if y.p.var > x.p.var then y.p.var else x.p.var

/-- `add` on vectors. -/
def vadd (x y : VEdge) : Option VEdge := (vadd2 (topVar x y + 1) x y).map Edge.lookup
/-- `add` on matrices. -/
def madd (x y : MEdge) : Option MEdge := (madd2 (topVar x y + 1) x y).map Edge.lookup

theorem topVar_eq {ι κ : Type} (x : Edge ι) (y : Edge κ) :
    topVar x y = max x.p.var y.p.var := by
  unfold topVar
  split_ifs with h
  · rw [max_eq_right h.le]
  · rw [max_eq_left (not_lt.1 h)]

/-! ### The recursion -/

/-- What the prefix has to satisfy. -/
structure GoodPreV (pre : VEdge → VEdge → Option VEdge) (R : ℂ → ℂ → ℂ → Prop) : Prop where
  done : ∀ x y r n, pre x y = some r → VOk n x → VOk n y →
    VOk n r ∧ ∀ z, R (x.vec z) (y.vec z) (r.vec z)
  go : ∀ x y, pre x y = none → x.w ≠ 0 ∧ y.w ≠ 0 ∧ x.p ≠ y.p

theorem VCan.cases {n : ℕ} {p : VNode} (h : VCan (n + 1) p) :
    ∃ w c, p = .node n w c ∧ vtop w = 1 ∧
      ∀ b, (w b = 0 → c b = .term) ∧ (w b ≠ 0 → VCan n (c b)) := by
  cases p with
  | term => exact absurd h (by simp [VCan])
  | node v w c =>
    obtain ⟨h1, h2, h3⟩ := h
    obtain rfl : n = v := by omega
    exact ⟨w, c, rfl, h2, h3⟩

theorem VCan.zero_cases {p : VNode} (h : VCan 0 p) : p = .term := by
  cases p with
  | term => rfl
  | node v w c => exact absurd h.1 (by omega)

theorem MCan.zero_cases {p : MNode} (h : MCan 0 p) : p = .term := by
  cases p with
  | term => rfl
  | node v w c => exact absurd h.1 (by omega)

theorem vsucc_eq {n : ℕ} {x : VEdge} (hx : VCan (n + 1) x.p) (b : Bool) :
    ∃ e, vsucc x b = some e ∧ VOk n e ∧ ∀ z : Bits, z n = b → e.vec z = x.vec z := by
  obtain ⟨w, c, hp, _, h3⟩ := hx.cases
  refine ⟨_, by unfold vsucc; rw [hp], ?_, ?_⟩
  · intro h
    simp only at h ⊢
    by_cases hw : w b = 0
    · rw [if_pos hw] at h; exact absurd rfl h
    · exact (h3 b).2 hw
  · intro z hz
    simp only [Edge.vec, hp, vval, hz]
    by_cases hw : w b = 0
    · simp [hw]
    · rw [if_neg hw]; ring

theorem recV_spec {pre : VEdge → VEdge → Option VEdge} {R : ℂ → ℂ → ℂ → Prop}
    (hpre : GoodPreV pre R) (n : ℕ) (x y : VEdge) (hx : VOk n x) (hy : VOk n y) :
    ∃ r, recV pre n x y = some r ∧ VOk n r ∧ ∀ z, R (x.vec z) (y.vec z) (r.vec z) := by
  induction n generalizing x y with
  | zero =>
    cases h : pre x y with
    | some r => exact ⟨r, h, hpre.done x y r 0 h hx hy⟩
    | none =>
      obtain ⟨h1, h2, h3⟩ := hpre.go x y h
      exact absurd ((hx h1).zero_cases.trans (hy h2).zero_cases.symm) h3
  | succ n ih =>
    cases h : pre x y with
    | some r => exact ⟨r, by rw [recV, h], hpre.done x y r (n + 1) h hx hy⟩
    | none =>
      obtain ⟨h1, h2, h3⟩ := hpre.go x y h
      have hb : ∀ b, ∃ r, ((vsucc x b).bind fun e1 => (vsucc y b).bind fun e2 =>
          recV pre n e1 e2) = some r ∧ VOk n r ∧
          ∀ z : Bits, z n = b → R (x.vec z) (y.vec z) (r.vec z) := by
        intro b
        obtain ⟨e1, s1, o1, v1⟩ := vsucc_eq (hx h1) b
        obtain ⟨e2, s2, o2, v2⟩ := vsucc_eq (hy h2) b
        obtain ⟨r, hr, ho, hv⟩ := ih e1 e2 o1 o2
        refine ⟨r, by rw [s1, s2]; exact hr, ho, fun z hz => ?_⟩
        rw [← v1 z hz, ← v2 z hz]
        exact hv z
      choose g hg using hb
      refine ⟨makeV n g, ?_, (makeV_can (fun b => (hg b).2.1)).ok, fun z => ?_⟩
      · rw [recV, h]
        simp only
        rw [collect_some (fun b => (hg b).1)]
        rfl
      · rw [makeV_vec]
        exact (hg (z n)).2.2 z rfl

structure GoodPreM (pre : MEdge → MEdge → Option MEdge) (R : ℂ → ℂ → ℂ → Prop) : Prop where
  done : ∀ x y r n, pre x y = some r → MOk n x → MOk n y →
    MOk n r ∧ ∀ a b, R (x.mat n a b) (y.mat n a b) (r.mat n a b)
  go : ∀ x y, pre x y = none → x.w ≠ 0 ∧ y.w ≠ 0 ∧ x.p ≠ y.p

theorem msucc_eq {n : ℕ} {x : MEdge} (hx : MCan (n + 1) x.p) (b : RC) :
    msucc n x b = ⟨(expand n x.p b).p, x.w * (expand n x.p b).w⟩ := by
  unfold msucc expand
  cases hp : x.p with
  | term =>
    simp only
    split_ifs
    · ext
      · simp [hp]
      · simp
    · simp [Edge.zero]
  | node v w c =>
    rw [hp] at hx
    have hv := hx.1
    simp only
    by_cases hvn : v = n
    · rw [if_neg (by omega), if_pos hvn]
      ext
      · rfl
      · simp only
        split_ifs with h0
        · rw [h0, mul_zero]
        · rfl
    · rw [if_pos (by omega), if_neg hvn]
      split_ifs
      · ext
        · simp [hp]
        · simp
      · simp [Edge.zero]

theorem msucc_ok {n : ℕ} {x : MEdge} (hx : MCan (n + 1) x.p) (b : RC) : MOk n (msucc n x b) := by
  rw [msucc_eq hx]
  exact MOk.smul (hx.block b).ok x.w

theorem msucc_mat {n : ℕ} {x : MEdge} (hx : MCan (n + 1) x.p) (r c : Bits) :
    (msucc n x (r n, c n)).mat n r c = x.mat (n + 1) r c := by
  rw [msucc_eq hx, mat_succ]
  simp only [Edge.mat]
  ring

theorem recM_spec {pre : MEdge → MEdge → Option MEdge} {R : ℂ → ℂ → ℂ → Prop}
    (hpre : GoodPreM pre R) (n : ℕ) (x y : MEdge) (hx : MOk n x) (hy : MOk n y) :
    ∃ r, recM pre n x y = some r ∧ MOk n r ∧
      ∀ a b, R (x.mat n a b) (y.mat n a b) (r.mat n a b) := by
  induction n generalizing x y with
  | zero =>
    cases h : pre x y with
    | some r => exact ⟨r, h, hpre.done x y r 0 h hx hy⟩
    | none =>
      obtain ⟨h1, h2, h3⟩ := hpre.go x y h
      exact absurd ((hx h1).zero_cases.trans (hy h2).zero_cases.symm) h3
  | succ n ih =>
    cases h : pre x y with
    | some r => exact ⟨r, by rw [recM, h], hpre.done x y r (n + 1) h hx hy⟩
    | none =>
      obtain ⟨h1, h2, h3⟩ := hpre.go x y h
      have hb : ∀ b, ∃ r, recM pre n (msucc n x b) (msucc n y b) = some r ∧ MOk n r ∧
          ∀ a c, R ((msucc n x b).mat n a c) ((msucc n y b).mat n a c) (r.mat n a c) :=
        fun b => ih _ _ (msucc_ok (hx h1) b) (msucc_ok (hy h2) b)
      choose g hg using hb
      refine ⟨makeM n g, ?_, (makeM_can (fun b => (hg b).2.1)).ok, fun a c => ?_⟩
      · rw [recM, h]
        simp only
        rw [collect_some (fun b => (hg b).1)]
        rfl
      · rw [makeM_mat (fun b => (hg b).2.1), ← msucc_mat (hx h1), ← msucc_mat (hy h2)]
        exact (hg (a n, c n)).2.2 a c

/-! ### The two prefixes -/

theorem addPre_goodV : GoodPreV addPre (fun x y r => r = x + y) := by
  constructor
  · intro x y r n h hx hy
    unfold addPre at h
    split_ifs at h with h1 h2 h3 h4 <;> cases h
    · exact ⟨VOk.zero n, fun z => by simp [Edge.vec, h1, h2]⟩
    · exact ⟨hy, fun z => by simp [Edge.vec, h1]⟩
    · exact ⟨hx, fun z => by simp [Edge.vec, h3]⟩
    · exact ⟨fun _ => hx h1, fun z => by simp only [Edge.vec, ← h4]; ring⟩
  · intro x y h
    unfold addPre at h
    split_ifs at h with h1 h2 h3 h4
    exact ⟨h1, h3, h4⟩

theorem addPre_goodM : GoodPreM addPre (fun x y r => r = x + y) := by
  constructor
  · intro x y r n h hx hy
    unfold addPre at h
    split_ifs at h with h1 h2 h3 h4 <;> cases h
    · exact ⟨MOk.zero n, fun a b => by simp [Edge.mat, h1, h2]⟩
    · exact ⟨hy, fun a b => by simp [Edge.mat, h1]⟩
    · exact ⟨hx, fun a b => by simp [Edge.mat, h3]⟩
    · exact ⟨fun _ => hx h1, fun a b => by simp only [Edge.mat, ← h4]; ring⟩
  · intro x y h
    unfold addPre at h
    split_ifs at h with h1 h2 h3 h4
    exact ⟨h1, h3, h4⟩

theorem normSq_sqrt {a : ℝ} (h : 0 ≤ a) : normSq ((√a : ℝ) : ℂ) = a := by
  rw [Complex.normSq_ofReal, Real.mul_self_sqrt h]

theorem magPre_goodV : GoodPreV magPre (fun x y r => normSq r = normSq x + normSq y) := by
  constructor
  · intro x y r n h hx hy
    unfold magPre at h
    split_ifs at h with h1 h2 h3 h4 <;> cases h
    · exact ⟨VOk.zero n, fun z => by simp [Edge.vec, h1, h2]⟩
    · refine ⟨fun _ => hy h2, fun z => ?_⟩
      simp only [Edge.vec, h1, map_mul, normSq_sqrt (Complex.normSq_nonneg _)]
      simp
    · refine ⟨fun _ => hx h1, fun z => ?_⟩
      simp only [Edge.vec, h3, map_mul, normSq_sqrt (Complex.normSq_nonneg _)]
      simp
    · refine ⟨fun _ => hx h1, fun z => ?_⟩
      simp only [Edge.vec, ← h4, map_mul,
        normSq_sqrt (add_nonneg (Complex.normSq_nonneg _) (Complex.normSq_nonneg _))]
      ring
  · intro x y h
    unfold magPre at h
    split_ifs at h with h1 h2 h3 h4
    exact ⟨h1, h3, h4⟩

theorem magPre_goodM : GoodPreM magPre (fun x y r => normSq r = normSq x + normSq y) := by
  constructor
  · intro x y r n h hx hy
    unfold magPre at h
    split_ifs at h with h1 h2 h3 h4 <;> cases h
    · exact ⟨MOk.zero n, fun a b => by simp [Edge.mat, h1, h2]⟩
    · refine ⟨fun _ => hy h2, fun a b => ?_⟩
      simp only [Edge.mat, h1, map_mul, normSq_sqrt (Complex.normSq_nonneg _)]
      simp
    · refine ⟨fun _ => hx h1, fun a b => ?_⟩
      simp only [Edge.mat, h3, map_mul, normSq_sqrt (Complex.normSq_nonneg _)]
      simp
    · refine ⟨fun _ => hx h1, fun a b => ?_⟩
      simp only [Edge.mat, ← h4, map_mul,
        normSq_sqrt (add_nonneg (Complex.normSq_nonneg _) (Complex.normSq_nonneg _))]
      ring
  · intro x y h
    unfold magPre at h
    split_ifs at h with h1 h2 h3 h4
    exact ⟨h1, h3, h4⟩

theorem vadd2_spec {n : ℕ} {x y : VEdge} (hx : VOk n x) (hy : VOk n y) :
    ∃ r, vadd2 n x y = some r ∧ VOk n r ∧ ∀ z, r.vec z = x.vec z + y.vec z :=
  recV_spec addPre_goodV n x y hx hy

theorem madd2_spec {n : ℕ} {x y : MEdge} (hx : MOk n x) (hy : MOk n y) :
    ∃ r, madd2 n x y = some r ∧ MOk n r ∧ ∀ a b, r.mat n a b = x.mat n a b + y.mat n a b :=
  recM_spec addPre_goodM n x y hx hy

/-! ### The start level -/

theorem VCan.var_eq {n : ℕ} {p : VNode} (h : VCan (n + 1) p) : p.var = n := by
  obtain ⟨w, c, rfl, _⟩ := h.cases
  rfl

theorem MCan.var_lt {n : ℕ} {p : MNode} (h : MCan n p) (hp : p ≠ .term) : p.var < n := by
  cases p with
  | term => exact absurd rfl hp
  | node v w c => exact h.1

/-- A matrix node only mentions levels up to its own. -/
theorem MCan.tight {n m : ℕ} {p : MNode} (h : MCan n p) (hm : p.var < m) : MCan m p := by
  cases p with
  | term => trivial
  | node v w c =>
    obtain ⟨_, h2⟩ := h
    exact ⟨hm, h2⟩

theorem MOk.up {n m : ℕ} {e : MEdge} (h : MOk n e) (hm : n ≤ m) : MOk m e :=
  fun h0 => MOk.mono hm (h h0)

theorem MECan.up {n m : ℕ} {e : MEdge} (h : MECan n e) (hm : n ≤ m) : MECan m e :=
  ⟨h.1, fun h0 => MOk.mono hm (h.2 h0)⟩

theorem mat_lift {n N : ℕ} {e : MEdge} (h : MOk n e) (hN : n ≤ N) (x y : Bits) :
    e.mat N x y = if ∀ q, n ≤ q → q < N → x q = y q then e.mat n x y else 0 := by
  obtain ⟨k, rfl⟩ := Nat.exists_eq_add_of_le hN
  unfold Edge.mat
  by_cases h0 : e.w = 0
  · simp [h0]
  · rw [mval_lift (h h0)]
    split_ifs
    · rfl
    · simp

theorem recV_pre {pre : VEdge → VEdge → Option VEdge} {x y r : VEdge} (h : pre x y = some r)
    (n : ℕ) : recV pre n x y = some r := by
  cases n with
  | zero => exact h
  | succ n => rw [recV, h]

theorem recM_pre {pre : MEdge → MEdge → Option MEdge} {x y r : MEdge} (h : pre x y = some r)
    (n : ℕ) : recM pre n x y = some r := by
  cases n with
  | zero => exact h
  | succ n => rw [recM, h]

theorem vadd_spec {n : ℕ} {x y : VEdge} (hx : VOk n x) (hy : VOk n y) :
    ∃ r, vadd x y = some r ∧ VECan n r ∧ ∀ z, r.vec z = x.vec z + y.vec z := by
  have key : ∃ r, vadd2 (topVar x y + 1) x y = some r ∧ VOk n r ∧
      ∀ z, r.vec z = x.vec z + y.vec z := by
    cases h : addPre x y with
    | some r => exact ⟨r, recV_pre h _, addPre_goodV.done x y r n h hx hy⟩
    | none =>
      obtain ⟨h1, h2, h3⟩ := addPre_goodV.go x y h
      cases n with
      | zero => exact absurd ((hx h1).zero_cases.trans (hy h2).zero_cases.symm) h3
      | succ n =>
        have : topVar x y = n := by
          rw [topVar_eq, (hx h1).var_eq, (hy h2).var_eq, max_self]
        rw [this]
        exact vadd2_spec hx hy
  obtain ⟨r, h1, h2, h3⟩ := key
  exact ⟨r.lookup, by rw [vadd, h1]; rfl, h2.lookup, fun z => by rw [lookup_vec, h3]⟩

theorem madd_spec {n : ℕ} {x y : MEdge} (hx : MOk n x) (hy : MOk n y) :
    ∃ r, madd x y = some r ∧ MECan n r ∧ ∀ a b, r.mat n a b = x.mat n a b + y.mat n a b := by
  have key : ∃ r, madd2 (topVar x y + 1) x y = some r ∧ MOk n r ∧
      ∀ a b, r.mat n a b = x.mat n a b + y.mat n a b := by
    cases h : addPre x y with
    | some r => exact ⟨r, recM_pre h _, addPre_goodM.done x y r n h hx hy⟩
    | none =>
      obtain ⟨h1, h2, h3⟩ := addPre_goodM.go x y h
      have hx' : MOk (topVar x y + 1) x := fun h0 => (hx h0).tight (by
        rw [topVar_eq]; have := le_max_left x.p.var y.p.var; omega)
      have hy' : MOk (topVar x y + 1) y := fun h0 => (hy h0).tight (by
        rw [topVar_eq]; have := le_max_right x.p.var y.p.var; omega)
      have hle : topVar x y + 1 ≤ n := by
        rw [topVar_eq]
        by_cases hxt : x.p = .term
        · have hyt : y.p ≠ .term := fun h' => h3 (hxt.trans h'.symm)
          have := (hy h2).var_lt hyt
          have h0 : (Node.term : MNode).var = 0 := rfl
          rw [hxt, h0]
          omega
        · by_cases hyt : y.p = .term
          · have := (hx h1).var_lt hxt
            have h0 : (Node.term : MNode).var = 0 := rfl
            rw [hyt, h0]
            omega
          · have := (hx h1).var_lt hxt
            have := (hy h2).var_lt hyt
            omega
      obtain ⟨r, hr, ho, hv⟩ := madd2_spec hx' hy'
      refine ⟨r, hr, ho.up hle, fun a b => ?_⟩
      rw [mat_lift ho hle, mat_lift hx' hle, mat_lift hy' hle, hv]
      split_ifs
      · rfl
      · simp
  obtain ⟨r, h1, h2, h3⟩ := key
  exact ⟨r.lookup, by rw [madd, h1]; rfl, h2.lookup, fun a b => by rw [lookup_mat, h3]⟩

end MQT.DD
