/-
Multiplication of decision diagrams.

Sources in /repo:
  include/mqt-core/dd/Package.hpp 1056-1092  `multiply`
  include/mqt-core/dd/Package.hpp 1117-1258  `multiply2` (matrix-matrix and
      matrix-vector instances; the density-matrix branches are not modelled)

The first argument of the recursions is `var + 1`.  Without levels left the code
would read successors of a null pointer or wrap `var` around: `none`.
-/
import Verif.DD.Add
import Verif.DD.Sum

set_option autoImplicit false

noncomputable section

open Classical
open Function (update)

namespace MQT.DD

open MQT.IR (Bits State)

/-- The prefix of the matrix-matrix product (Package.hpp 1125-1163). -/
def mmulPre (x y : MEdge) : Option MEdge :=
  if x.w = 0 ∨ y.w = 0 then some .zero
  else
    match x.p, y.p with
    | .term, _ => some ⟨y.p, x.w * y.w⟩
    | _, .term => some ⟨x.p, x.w * y.w⟩
    | _, _ => none

/-- Adding the two products of a block (Package.hpp 1242-1248). -/
def maccum (n : ℕ) (m0 m1 : MEdge) : Option MEdge :=
  if m0.w = 0 then some m1
  else if m1.w ≠ 0 then madd2 n m0 m1
  else some m0

/-- `multiply2` for two matrices. -/
def mmul2 : ℕ → MEdge → MEdge → Option MEdge
  | 0, x, y => mmulPre x y
  | n + 1, x, y =>
    match mmulPre x y with
    | some r => some r
    | none =>
      (collect fun b : RC =>
        (mmul2 n (expand n x.p (b.1, false)) (expand n y.p (false, b.2))).bind fun m0 =>
        (mmul2 n (expand n x.p (b.1, true)) (expand n y.p (true, b.2))).bind fun m1 =>
        maccum n m0 m1).map fun edge =>
          ⟨(makeM n edge).p, (makeM n edge).w * (x.w * y.w)⟩

/-- The successors of a vector as `multiply2` reads them (Package.hpp 1192-1201,
with `cols = 1`). -/
def vexpand (n : ℕ) (p : VNode) (k : Bool) : VEdge :=
  match p with
  | .term => if k = false then ⟨.term, 1⟩ else .zero
  | .node v w c => if v = n then ⟨c k, w k⟩ else if k = false then ⟨.node v w c, 1⟩ else .zero

/-- The prefix of the matrix-vector product. -/
def mvmulPre (x : MEdge) (y : VEdge) : Option VEdge :=
  if x.w = 0 ∨ y.w = 0 then some .zero
  else
    match x.p with
    | .term => some ⟨y.p, x.w * y.w⟩
    | _ => none

/-- Adding the two products of a vector half. -/
def vaccum (n : ℕ) (m0 m1 : VEdge) : Option VEdge :=
  if m0.w = 0 then some m1
  else if m1.w ≠ 0 then vadd2 n m0 m1
  else some m0

/-- `multiply2` for a matrix and a vector. -/
def mvmul2 : ℕ → MEdge → VEdge → Option VEdge
  | 0, x, y => mvmulPre x y
  | n + 1, x, y =>
    match mvmulPre x y with
    | some r => some r
    | none =>
      (collect fun b : Bool =>
        (mvmul2 n (expand n x.p (b, false)) (vexpand n y.p false)).bind fun m0 =>
        (mvmul2 n (expand n x.p (b, true)) (vexpand n y.p true)).bind fun m1 =>
        vaccum n m0 m1).map fun edge =>
          ⟨(makeV n edge).p, (makeV n edge).w * (x.w * y.w)⟩

/-- `multiply` for two matrices. -/
def mmul (x y : MEdge) : Option MEdge := (mmul2 (topVar x y + 1) x y).map Edge.lookup
/-- `multiply` for a matrix and a vector. -/
def mvmul (x : MEdge) (y : VEdge) : Option VEdge := (mvmul2 (topVar x y + 1) x y).map Edge.lookup

/-! ### Specification -/

/-- Matrix product on `n` qubits. -/
def matMul (n : ℕ) (A B : Bits → Bits → ℂ) (a b : Bits) : ℂ := sumB n (fun z => A a z * B z b) a
/-- Matrix-vector product on `n` qubits. -/
def matVec (n : ℕ) (A : Bits → Bits → ℂ) (v : Bits → ℂ) (a : Bits) : ℂ :=
  sumB n (fun z => A a z * v z) a

theorem matMul_eq (n : ℕ) (A B : Bits → Bits → ℂ) (a b : Bits) :
    matMul n A B a b = ∑ t : Fin n → Bool, A a (fill t a) * B (fill t a) b := sumB_eq _ _ _
theorem matVec_eq (n : ℕ) (A : Bits → Bits → ℂ) (v : Bits → ℂ) (a : Bits) :
    matVec n A v a = ∑ t : Fin n → Bool, A a (fill t a) * v (fill t a) := sumB_eq _ _ _

theorem mat_congr (e : MEdge) (n : ℕ) {a b a' b' : Bits} (ha : ∀ q < n, a q = a' q)
    (hb : ∀ q < n, b q = b' q) : e.mat n a b = e.mat n a' b' := by
  unfold Edge.mat
  rw [mval_congr n e.p ha hb]

theorem vec_congr {e : VEdge} {n : ℕ} (h : VOk n e) {a a' : Bits} (ha : ∀ q < n, a q = a' q) :
    e.vec a = e.vec a' := by
  unfold Edge.vec
  by_cases h0 : e.w = 0
  · simp [h0]
  · rw [vval_congr (h h0) ha]

theorem low_lt {n : ℕ} (a s : Bits) {q : ℕ} (h : q < n) : low n a s q = a q := if_pos h

theorem term_mat (w : ℂ) (n : ℕ) (a b : Bits) :
    (⟨.term, w⟩ : MEdge).mat n a b = if ∀ q < n, a q = b q then w else 0 := by
  unfold Edge.mat
  rw [mval_term]
  split_ifs <;> simp

theorem matMul_term_left (w : ℂ) (y : MEdge) (n : ℕ) (a b s : Bits) :
    sumB n (fun z => (⟨.term, w⟩ : MEdge).mat n a z * y.mat n z b) s = w * y.mat n a b := by
  have : ∀ z, (⟨.term, w⟩ : MEdge).mat n a z * y.mat n z b
      = if ∀ q < n, a q = z q then w * y.mat n z b else 0 := by
    intro z
    rw [term_mat]
    split_ifs <;> simp
  simp only [this]
  rw [sumB_pick n a (fun z => w * y.mat n z b)]
  rw [mat_congr y n (fun q hq => low_lt a s hq) (fun q _ => rfl)]

theorem matMul_term_right (w : ℂ) (x : MEdge) (n : ℕ) (a b s : Bits) :
    sumB n (fun z => x.mat n a z * (⟨.term, w⟩ : MEdge).mat n z b) s = w * x.mat n a b := by
  have : ∀ z, x.mat n a z * (⟨.term, w⟩ : MEdge).mat n z b
      = if ∀ q < n, b q = z q then w * x.mat n a z else 0 := by
    intro z
    rw [term_mat]
    by_cases h : ∀ q < n, z q = b q
    · rw [if_pos h, if_pos (fun q hq => (h q hq).symm), mul_comm]
    · rw [if_neg h, if_neg (fun h' => h (fun q hq => (h' q hq).symm)), mul_zero]
  simp only [this]
  rw [sumB_pick n b (fun z => w * x.mat n a z)]
  rw [mat_congr x n (fun q _ => rfl) (fun q hq => low_lt b s hq)]

theorem matVec_term_left (w : ℂ) {y : VEdge} {n : ℕ} (hy : VOk n y) (a s : Bits) :
    sumB n (fun z => (⟨.term, w⟩ : MEdge).mat n a z * y.vec z) s = w * y.vec a := by
  have : ∀ z, (⟨.term, w⟩ : MEdge).mat n a z * y.vec z
      = if ∀ q < n, a q = z q then w * y.vec z else 0 := by
    intro z
    rw [term_mat]
    split_ifs <;> simp
  simp only [this]
  rw [sumB_pick n a (fun z => w * y.vec z)]
  rw [vec_congr hy (fun q hq => low_lt a s hq)]

/-! ### Matrix times matrix -/

theorem mmulPre_done {x y r : MEdge} {n : ℕ} (h : mmulPre x y = some r) (hx : MOk n x)
    (hy : MOk n y) : MOk n r ∧
      ∀ a b s, r.mat n a b = sumB n (fun z => x.mat n a z * y.mat n z b) s := by
  unfold mmulPre at h
  split_ifs at h with h0
  · cases h
    refine ⟨MOk.zero n, fun a b s => ?_⟩
    have : ∀ z, x.mat n a z * y.mat n z b = 0 := by
      intro z
      rcases h0 with h0 | h0 <;> simp [Edge.mat, h0]
    simp only [this, sumB_zero, zero_mat]
  · push Not at h0
    obtain ⟨xp, xw⟩ := x
    obtain ⟨yp, yw⟩ := y
    cases xp with
    | term =>
      simp only [Option.some.injEq] at h
      subst h
      refine ⟨fun _ => hy h0.2, fun a b s => ?_⟩
      rw [matMul_term_left]
      simp only [Edge.mat]
      ring
    | node v w c =>
      cases yp with
      | term =>
        simp only [Option.some.injEq] at h
        subst h
        refine ⟨fun _ => hx h0.1, fun a b s => ?_⟩
        rw [matMul_term_right]
        simp only [Edge.mat]
        ring
      | node v' w' c' => cases h

theorem mmulPre_none {x y : MEdge} (h : mmulPre x y = none) :
    x.w ≠ 0 ∧ y.w ≠ 0 ∧ x.p ≠ .term ∧ y.p ≠ .term := by
  unfold mmulPre at h
  split_ifs at h with h0
  push Not at h0
  obtain ⟨xp, xw⟩ := x
  obtain ⟨yp, yw⟩ := y
  cases xp with
  | term => cases h
  | node v w c =>
    cases yp with
    | term => cases h
    | node v' w' c' => exact ⟨h0.1, h0.2, by simp, by simp⟩

theorem maccum_spec {n : ℕ} {m0 m1 : MEdge} (h0 : MOk n m0) (h1 : MOk n m1) :
    ∃ r, maccum n m0 m1 = some r ∧ MOk n r ∧ ∀ a b, r.mat n a b = m0.mat n a b + m1.mat n a b := by
  unfold maccum
  by_cases e0 : m0.w = 0
  · rw [if_pos e0]
    exact ⟨m1, rfl, h1, fun a b => by simp [Edge.mat, e0]⟩
  · rw [if_neg e0]
    by_cases e1 : m1.w = 0
    · rw [if_neg (not_not.2 e1)]
      exact ⟨m0, rfl, h0, fun a b => by simp [Edge.mat, e1]⟩
    · rw [if_pos e1]
      exact madd2_spec h0 h1

theorem mmul2_spec (n : ℕ) {x y : MEdge} (hx : MOk n x) (hy : MOk n y) :
    ∃ r, mmul2 n x y = some r ∧ MOk n r ∧
      ∀ a b s, r.mat n a b = sumB n (fun z => x.mat n a z * y.mat n z b) s := by
  induction n generalizing x y with
  | zero =>
    cases h : mmulPre x y with
    | some r => exact ⟨r, h, mmulPre_done h hx hy⟩
    | none =>
      obtain ⟨h1, h2, h3, h4⟩ := mmulPre_none h
      exact absurd (hx h1).zero_cases h3
  | succ n ih =>
    cases h : mmulPre x y with
    | some r => exact ⟨r, by rw [mmul2, h], mmulPre_done h hx hy⟩
    | none =>
      obtain ⟨h1, h2, h3, h4⟩ := mmulPre_none h
      have hb : ∀ b : RC, ∃ r, ((mmul2 n (expand n x.p (b.1, false))
            (expand n y.p (false, b.2))).bind fun m0 =>
          (mmul2 n (expand n x.p (b.1, true)) (expand n y.p (true, b.2))).bind fun m1 =>
          maccum n m0 m1) = some r ∧ MOk n r ∧ ∀ a c s, r.mat n a c =
            sumB n (fun z => (expand n x.p (b.1, false)).mat n a z
                * (expand n y.p (false, b.2)).mat n z c) s
            + sumB n (fun z => (expand n x.p (b.1, true)).mat n a z
                * (expand n y.p (true, b.2)).mat n z c) s := by
        intro b
        obtain ⟨r0, e0, o0, v0⟩ := ih ((hx h1).block (b.1, false)).ok ((hy h2).block (false, b.2)).ok
        obtain ⟨r1, e1, o1, v1⟩ := ih ((hx h1).block (b.1, true)).ok ((hy h2).block (true, b.2)).ok
        obtain ⟨r, e, o, v⟩ := maccum_spec o0 o1
        refine ⟨r, by rw [e0, e1]; exact e, o, fun a c s => ?_⟩
        rw [v, v0 a c s, v1 a c s]
      choose g hg using hb
      refine ⟨⟨(makeM n g).p, (makeM n g).w * (x.w * y.w)⟩, ?_, ?_, fun a c s => ?_⟩
      · rw [mmul2, h]
        simp only
        rw [collect_some (fun b => (hg b).1)]
        rfl
      · have := (makeM_can (fun b => (hg b).2.1)).ok
        intro h0
        exact this (left_ne_zero_of_mul h0)
      · have e1 : (⟨(makeM n g).p, (makeM n g).w * (x.w * y.w)⟩ : MEdge).mat (n + 1) a c
            = (x.w * y.w) * (makeM n g).mat (n + 1) a c := by
          simp only [Edge.mat]; ring
        rw [e1, makeM_mat (fun b => (hg b).2.1), (hg (a n, c n)).2.2 a c s, sumB_succ, mul_add,
          ← sumB_mul_left, ← sumB_mul_left]
        have hk : ∀ k z, (x.w * y.w) * ((expand n x.p (a n, k)).mat n a z
              * (expand n y.p (k, c n)).mat n z c)
            = x.mat (n + 1) a (update z n k) * y.mat (n + 1) (update z n k) c := by
          intro k z
          rw [mat_succ, mat_succ, Function.update_self,
            mat_congr (expand n x.p (a n, k)) n (a := a) (b := update z n k) (a' := a) (b' := z)
              (fun q _ => rfl) (fun q hq => Function.update_of_ne (by omega) _ _),
            mat_congr (expand n y.p (k, c n)) n (a := update z n k) (b := c) (a' := z) (b' := c)
              (fun q hq => Function.update_of_ne (by omega) _ _) (fun q _ => rfl)]
          ring
        simp only [hk]

/-! ### Matrix times vector -/

theorem vexpand_eq {n : ℕ} {p : VNode} (h : VCan (n + 1) p) (k : Bool) :
    VOk n (vexpand n p k) ∧ ∀ z : Bits, z n = k → (vexpand n p k).vec z = vval p z := by
  obtain ⟨w, c, rfl, _, h3⟩ := h.cases
  have e : vexpand n (.node n w c) k = ⟨c k, w k⟩ := by simp [vexpand]
  rw [e]
  refine ⟨(h3 k).2, fun z hz => ?_⟩
  simp [Edge.vec, vval, hz]

theorem mvmulPre_done {x : MEdge} {y r : VEdge} {n : ℕ} (h : mvmulPre x y = some r)
    (hy : VOk n y) : VOk n r ∧
      ∀ a s, r.vec a = sumB n (fun z => x.mat n a z * y.vec z) s := by
  unfold mvmulPre at h
  split_ifs at h with h0
  · cases h
    refine ⟨VOk.zero n, fun a s => ?_⟩
    have : ∀ z, x.mat n a z * y.vec z = 0 := by
      intro z
      rcases h0 with h0 | h0 <;> simp [Edge.mat, Edge.vec, h0]
    simp only [this, sumB_zero, zero_vec]
  · push Not at h0
    obtain ⟨xp, xw⟩ := x
    cases xp with
    | term =>
      simp only [Option.some.injEq] at h
      subst h
      refine ⟨fun _ => hy h0.2, fun a s => ?_⟩
      rw [matVec_term_left _ hy]
      simp only [Edge.vec]
      ring
    | node v w c => cases h

theorem mvmulPre_none {x : MEdge} {y : VEdge} (h : mvmulPre x y = none) :
    x.w ≠ 0 ∧ y.w ≠ 0 ∧ x.p ≠ .term := by
  unfold mvmulPre at h
  split_ifs at h with h0
  push Not at h0
  obtain ⟨xp, xw⟩ := x
  cases xp with
  | term => cases h
  | node v w c => exact ⟨h0.1, h0.2, by simp⟩

theorem vaccum_spec {n : ℕ} {m0 m1 : VEdge} (h0 : VOk n m0) (h1 : VOk n m1) :
    ∃ r, vaccum n m0 m1 = some r ∧ VOk n r ∧ ∀ a, r.vec a = m0.vec a + m1.vec a := by
  unfold vaccum
  by_cases e0 : m0.w = 0
  · rw [if_pos e0]
    exact ⟨m1, rfl, h1, fun a => by simp [Edge.vec, e0]⟩
  · rw [if_neg e0]
    by_cases e1 : m1.w = 0
    · rw [if_neg (not_not.2 e1)]
      exact ⟨m0, rfl, h0, fun a => by simp [Edge.vec, e1]⟩
    · rw [if_pos e1]
      exact vadd2_spec h0 h1

theorem mvmul2_spec (n : ℕ) {x : MEdge} {y : VEdge} (hx : MOk n x) (hy : VOk n y) :
    ∃ r, mvmul2 n x y = some r ∧ VOk n r ∧
      ∀ a s, r.vec a = sumB n (fun z => x.mat n a z * y.vec z) s := by
  induction n generalizing x y with
  | zero =>
    cases h : mvmulPre x y with
    | some r => exact ⟨r, h, mvmulPre_done h hy⟩
    | none =>
      obtain ⟨h1, h2, h3⟩ := mvmulPre_none h
      exact absurd (hx h1).zero_cases h3
  | succ n ih =>
    cases h : mvmulPre x y with
    | some r => exact ⟨r, by rw [mvmul2, h], mvmulPre_done h hy⟩
    | none =>
      obtain ⟨h1, h2, h3⟩ := mvmulPre_none h
      have hb : ∀ b : Bool, ∃ r, ((mvmul2 n (expand n x.p (b, false))
            (vexpand n y.p false)).bind fun m0 =>
          (mvmul2 n (expand n x.p (b, true)) (vexpand n y.p true)).bind fun m1 =>
          vaccum n m0 m1) = some r ∧ VOk n r ∧ ∀ a s, r.vec a =
            sumB n (fun z => (expand n x.p (b, false)).mat n a z * (vexpand n y.p false).vec z) s
            + sumB n (fun z => (expand n x.p (b, true)).mat n a z * (vexpand n y.p true).vec z) s := by
        intro b
        obtain ⟨r0, e0, o0, v0⟩ := ih ((hx h1).block (b, false)).ok (vexpand_eq (hy h2) false).1
        obtain ⟨r1, e1, o1, v1⟩ := ih ((hx h1).block (b, true)).ok (vexpand_eq (hy h2) true).1
        obtain ⟨r, e, o, v⟩ := vaccum_spec o0 o1
        refine ⟨r, by rw [e0, e1]; exact e, o, fun a s => ?_⟩
        rw [v, v0 a s, v1 a s]
      choose g hg using hb
      refine ⟨⟨(makeV n g).p, (makeV n g).w * (x.w * y.w)⟩, ?_, ?_, fun a s => ?_⟩
      · rw [mvmul2, h]
        simp only
        rw [collect_some (fun b => (hg b).1)]
        rfl
      · have := (makeV_can (fun b => (hg b).2.1)).ok
        intro h0
        exact this (left_ne_zero_of_mul h0)
      · have e1 : (⟨(makeV n g).p, (makeV n g).w * (x.w * y.w)⟩ : VEdge).vec a
            = (x.w * y.w) * (makeV n g).vec a := by
          simp only [Edge.vec]; ring
        rw [e1, makeV_vec, (hg (a n)).2.2 a s, sumB_succ, mul_add, ← sumB_mul_left, ← sumB_mul_left]
        have hk : ∀ k z, (x.w * y.w) * ((expand n x.p (a n, k)).mat n a z * (vexpand n y.p k).vec z)
            = x.mat (n + 1) a (update z n k) * y.vec (update z n k) := by
          intro k z
          have e2 : y.vec (update z n k) = y.w * (vexpand n y.p k).vec z := by
            rw [vec_congr (vexpand_eq (hy h2) k).1 (a := z) (a' := update z n k)
              (fun q hq => (Function.update_of_ne (by omega) _ _).symm),
              (vexpand_eq (hy h2) k).2 _ (Function.update_self _ _ _)]
            rfl
          rw [e2, mat_succ, Function.update_self,
            mat_congr (expand n x.p (a n, k)) n (a := a) (b := update z n k) (a' := a) (b' := z)
              (fun q _ => rfl) (fun q hq => Function.update_of_ne (by omega) _ _)]
          ring
        simp only [hk]

/-! ### The public functions -/

theorem mmul2_pre {x y r : MEdge} (h : mmulPre x y = some r) (n : ℕ) : mmul2 n x y = some r := by
  cases n with
  | zero => exact h
  | succ n => rw [mmul2, h]

theorem mvmul2_pre {x : MEdge} {y r : VEdge} (h : mvmulPre x y = some r) (n : ℕ) :
    mvmul2 n x y = some r := by
  cases n with
  | zero => exact h
  | succ n => rw [mvmul2, h]

theorem mmul_spec {n : ℕ} {x y : MEdge} (hx : MOk n x) (hy : MOk n y) :
    ∃ r, mmul x y = some r ∧ MECan n r ∧
      ∀ a b, r.mat n a b = matMul n (x.mat n) (y.mat n) a b := by
  have key : ∃ r, mmul2 (topVar x y + 1) x y = some r ∧ MOk n r ∧
      ∀ a b, r.mat n a b = matMul n (x.mat n) (y.mat n) a b := by
    cases h : mmulPre x y with
    | some r =>
      obtain ⟨h1, h2⟩ := mmulPre_done h hx hy
      exact ⟨r, mmul2_pre h _, h1, fun a b => h2 a b a⟩
    | none =>
      obtain ⟨h1, h2, h3, h4⟩ := mmulPre_none h
      have hx' : MOk (topVar x y + 1) x := fun h0 => (hx h0).tight (by
        rw [topVar_eq]; have := le_max_left x.p.var y.p.var; omega)
      have hy' : MOk (topVar x y + 1) y := fun h0 => (hy h0).tight (by
        rw [topVar_eq]; have := le_max_right x.p.var y.p.var; omega)
      have hle : topVar x y + 1 ≤ n := by
        rw [topVar_eq]
        have := (hx h1).var_lt h3
        have := (hy h2).var_lt h4
        omega
      obtain ⟨r, hr, ho, hv⟩ := mmul2_spec _ hx' hy'
      refine ⟨r, hr, ho.up hle, fun a b => ?_⟩
      obtain ⟨k, rfl⟩ := Nat.exists_eq_add_of_le hle
      set m := topVar x y + 1 with hm
      unfold matMul
      have e : ∀ z, x.mat (m + k) a z * y.mat (m + k) z b
          = if ∀ q, m ≤ q → q < m + k → a q = z q then
              (if ∀ q, m ≤ q → q < m + k → a q = b q then x.mat m a z * y.mat m z b else 0)
            else 0 := by
        intro z
        rw [mat_lift hx' hle, mat_lift hy' hle]
        by_cases e1 : ∀ q, m ≤ q → q < m + k → a q = z q
        · rw [if_pos e1, if_pos e1]
          by_cases e2 : ∀ q, m ≤ q → q < m + k → z q = b q
          · rw [if_pos e2, if_pos (fun q h1 h2 => (e1 q h1 h2).trans (e2 q h1 h2))]
          · rw [if_neg e2, if_neg, mul_zero]
            intro h'
            exact e2 (fun q h1 h2 => (e1 q h1 h2).symm.trans (h' q h1 h2))
        · rw [if_neg e1, if_neg e1, zero_mul]
      simp only [e]
      rw [sumB_pick_high m k a (fun z => if ∀ q, m ≤ q → q < m + k → a q = b q then
        x.mat m a z * y.mat m z b else 0), mat_lift ho hle]
      by_cases e2 : ∀ q, m ≤ q → q < m + k → a q = b q
      · rw [if_pos e2]
        simp only [if_pos e2]
        exact hv a b _
      · rw [if_neg e2]
        simp only [if_neg e2, sumB_zero]
  obtain ⟨r, h1, h2, h3⟩ := key
  exact ⟨r.lookup, by rw [mmul, h1]; rfl, h2.lookup, fun a b => by rw [lookup_mat, h3]⟩

theorem mvmul_spec {n : ℕ} {x : MEdge} {y : VEdge} (hx : MOk n x) (hy : VOk n y) :
    ∃ r, mvmul x y = some r ∧ VECan n r ∧ ∀ a, r.vec a = matVec n (x.mat n) y.vec a := by
  have key : ∃ r, mvmul2 (topVar x y + 1) x y = some r ∧ VOk n r ∧
      ∀ a, r.vec a = matVec n (x.mat n) y.vec a := by
    cases h : mvmulPre x y with
    | some r =>
      obtain ⟨h1, h2⟩ := mvmulPre_done h hy (x := x)
      exact ⟨r, mvmul2_pre h _, h1, fun a => h2 a a⟩
    | none =>
      obtain ⟨h1, h2, h3⟩ := mvmulPre_none h
      cases n with
      | zero => exact absurd (hx h1).zero_cases h3
      | succ n =>
        have : topVar x y = n := by
          rw [topVar_eq, (hy h2).var_eq]
          have := (hx h1).var_lt h3
          omega
        rw [this]
        obtain ⟨r, hr, ho, hv⟩ := mvmul2_spec (n + 1) hx hy
        exact ⟨r, hr, ho, fun a => hv a a⟩
  obtain ⟨r, h1, h2, h3⟩ := key
  exact ⟨r.lookup, by rw [mvmul, h1]; rfl, h2.lookup, fun a => by rw [lookup_vec, h3]⟩

end MQT.DD
