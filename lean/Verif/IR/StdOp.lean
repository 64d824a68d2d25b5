/-
`qc::StandardOperation`: representation, meaning, inversion, commutation test and comparison.

Sources:
* `include/mqt-core/ir/operations/Operation.hpp` 28-36 (members), 150-167 (`isDiagonalGate`),
  `actsOn`, `include/mqt-core/ir/operations/Control.hpp` (controls, ordered set);
* `src/ir/operations/StandardOperation.cpp` 497-558 (`commutesAtQubit`), 560-643 (`invert`);
* `src/ir/operations/Operation.cpp` 112-161 (`equals`), `isInverseOf`, `getUsedQubitsPermuted`;
* `src/dd/Operations.cpp` 38-142 (`getStandardOperationDD`, both overloads), 144-157 (`getDD`,
  barrier and global phase).

The parameter type is a variable `P` so that purely structural code can be evaluated; the meaning
is defined for `P = ℝ`.  `Controls` is a `std::set<Control>`: a finite set of (qubit, polarity).
-/
import Verif.IR.Gates
import Mathlib.Data.Finset.Image
import Mathlib.Data.Finset.Union

set_option autoImplicit false
set_option linter.unusedSectionVars false
set_option linter.unusedTactic false
set_option linter.unreachableTactic false

namespace MQT.IR

open Real OpType
open Function (update)

/-- `qc::StandardOperation` (members of `qc::Operation`). -/
structure StdOp (P : Type) where
  type : OpType
  params : List P := []
  controls : Finset Ctrl := ∅
  targets : List ℕ
  deriving DecidableEq

namespace StdOp

variable {P : Type}

/-- `Operation::actsOn` (Operation.hpp). -/
def actsOn (o : StdOp P) (q : ℕ) : Bool := decide (q ∈ o.targets) || decide (q ∈ ctrlQubits o.controls)

/-- `controls.find(qubit) != controls.end()`. -/
def controlledOn (o : StdOp P) (q : ℕ) : Bool := decide (q ∈ ctrlQubits o.controls)

/-- `getUsedQubits`. -/
def used (o : StdOp P) : Finset ℕ := o.targets.toFinset ∪ ctrlQubits o.controls

/-- What the library's gate builders produce: targets are distinct and no target is also a
control (`QuantumComputation::checkQubitRange`, `addControl`). -/
structure WF (o : StdOp P) : Prop where
  nodup : o.targets.Nodup
  disj : ∀ q ∈ o.targets, q ∉ ctrlQubits o.controls

/-- Spec-level meaning of a standard operation: the barrier does nothing, a global phase
multiplies by `exp(iθ)` (where its controls hold), every other gate acts by its matrix.
`none`: the type has no matrix, a parameter is missing, or the number of targets is wrong. -/
noncomputable def denote (o : StdOp ℝ) : Option (State → State) :=
  match o.type with
  | barrier => some fun ψ => ψ
  | gphase => o.params[0]?.map fun θ => ctl o.controls (phase ⟨cos θ, sin θ⟩)
  | ty =>
    if ty.isSingleQubitGate then
      match o.targets, gate1 ty o.params with
      | [q], some M => some (ctl o.controls (app1 M q))
      | _, _ => Option.none
    else
      match o.targets, gate2 ty o.params with
      | [q0, q1], some M => some (ctl o.controls (app2 M q0 q1))
      | _, _ => Option.none

/-- Replace the first parameter (`parameter[0] = f(parameter[0])`; UB when there is none). -/
def mapFirst (f : P → P) : List P → Option (List P)
  | [] => Option.none
  | a :: l => some (f a :: l)

/-- `StandardOperation::invert` (560-643).  `none` = throws / out-of-range parameter access. -/
noncomputable def invert (o : StdOp ℝ) : Option (StdOp ℝ) :=
  match o.type with
  | i | x | y | z | h | swap | ecr | barrier => some o
  | gphase | p | rx | ry | rz | rxx | ryy | rzz | rzx =>
    (mapFirst (fun a => -a) o.params).map fun ps => { o with params := ps }
  | u2 => match o.params with
    | a :: b :: l => some { o with params := (-b + π) :: (-a - π) :: l }
    | _ => Option.none
  | u => match o.params with
    | a :: b :: c :: l => some { o with params := (-a) :: (-c) :: (-b) :: l }
    | _ => Option.none
  | xxminusyy | xxplusyy =>
    (mapFirst (fun a => -a) o.params).map fun ps => { o with params := ps }
  | dcx => match o.targets with
    | a :: b :: l => some { o with targets := b :: a :: l }
    | _ => Option.none
  | s => some { o with type := sdg }
  | sdg => some { o with type := s }
  | t => some { o with type := tdg }
  | tdg => some { o with type := t }
  | v => some { o with type := vdg }
  | vdg => some { o with type := v }
  | sx => some { o with type := sxdg }
  | sxdg => some { o with type := sx }
  | peres => some { o with type := peresdg }
  | peresdg => some { o with type := peres }
  | iswap => some { o with type := iswapdg }
  | iswapdg => some { o with type := iswap }
  | _ => Option.none

/-- The operation whose matrix `getStandardOperationDD(op, …, inverse = true)` builds
(dd/Operations.cpp 61-142) — written separately in the code from `StandardOperation::invert`. -/
noncomputable def ddInvert (o : StdOp ℝ) : Option (StdOp ℝ) :=
  match o.type with
  | i | h | x | y | z | swap | ecr => some o
  | iswap | iswapdg | peres | peresdg | s | sdg | t | tdg | v | vdg | sx | sxdg =>
    o.type.flipInv.map fun ty => { o with type := ty }
  | rxx | ryy | rzz | rzx | rx | ry | rz | p | xxminusyy | xxplusyy =>
    (mapFirst (fun a => -a) o.params).map fun ps => { o with params := ps }
  | dcx => match o.targets with
    | [a, b] => some { o with targets := [b, a] }
    | _ => Option.none
  | u => match o.params with
    | a :: b :: c :: l => some { o with params := (-a) :: (-c) :: (-b) :: l.map (fun y => -y) }
    | _ => Option.none
  | u2 => match o.params with
    | a :: b :: l => some { o with params := (-b - π) :: (-a + π) :: l }
    | _ => Option.none
  | _ => Option.none

/-- `StandardOperation::commutesAtQubit` (497-558) for two standard operations. -/
def commutesAt [DecidableEq P] (o1 o2 : StdOp P) (q : ℕ) : Bool :=
  if !o1.actsOn q || !o2.actsOn q then true
  else if o1.controlledOn q then
    if o2.controlledOn q then true else o2.type.isDiagonal
  else if o2.controlledOn q then o1.type.isDiagonal
  else if o1.type.isDiagonal && o2.type.isDiagonal then true
  else if o1.params.length ≤ 1 then
    o1.type == o2.type && o1.targets == o2.targets
  else o1.type == o2.type && o1.targets == o2.targets && o1.params == o2.params

/-- Relabel the qubits (`Permutation::apply` on targets and controls). -/
def relabel (f : ℕ → ℕ) (o : StdOp P) : StdOp P :=
  { o with targets := o.targets.map f, controls := o.controls.image fun c => (f c.1, c.2) }

/-- Negative control qubits after relabelling (Operation.cpp 140-153). -/
def negControls (f : ℕ → ℕ) (o : StdOp P) : Finset ℕ :=
  (o.controls.filter fun c => c.2 = false).image fun c => f c.1

/-- `getUsedQubitsPermuted` (Operation.cpp). -/
def usedPermuted (f : ℕ → ℕ) (o : StdOp P) : Finset ℕ :=
  (o.targets.map f).toFinset ∪ (ctrlQubits o.controls).image f

/-- `Operation::equals(op, perm1, perm2)` (Operation.cpp 112-161). -/
def equals [DecidableEq P] (f1 f2 : ℕ → ℕ) (o1 o2 : StdOp P) : Bool :=
  if o1.type ≠ o2.type then false
  else if o1.controls.card ≠ o2.controls.card then false
  else if o1.params ≠ o2.params then false
  else if o1.type.isDiagonal then
    if o1.usedPermuted f1 ≠ o2.usedPermuted f2 then false
    else decide (o1.negControls f1 = o2.negControls f2)
  else if o1.controls.card ≠ 0 ∧ (o1.relabel f1).controls ≠ (o2.relabel f2).controls then false
  else decide ((o1.relabel f1).targets = (o2.relabel f2).targets)

/-! ### Unfolding the meaning -/

theorem denote_single {o : StdOp ℝ} (h : o.type.isSingleQubitGate = true) :
    o.denote = match o.targets, gate1 o.type o.params with
      | [q], some M => some (ctl o.controls (app1 M q))
      | _, _ => Option.none := by
  obtain ⟨ty, ps, cs, ts⟩ := o
  cases ty <;> first | rfl | cases h

theorem denote_two {o : StdOp ℝ} (h : o.type.isTwoQubitGate = true) :
    o.denote = match o.targets, gate2 o.type o.params with
      | [q0, q1], some M => some (ctl o.controls (app2 M q0 q1))
      | _, _ => Option.none := by
  obtain ⟨ty, ps, cs, ts⟩ := o
  cases ty <;> first | rfl | cases h

theorem denote_barrier {o : StdOp ℝ} (h : o.type = barrier) : o.denote = some fun ψ => ψ := by
  obtain ⟨ty, ps, cs, ts⟩ := o; cases h; rfl

theorem denote_gphase {o : StdOp ℝ} (h : o.type = gphase) :
    o.denote = o.params[0]?.map fun θ => ctl o.controls (phase ⟨cos θ, sin θ⟩) := by
  obtain ⟨ty, ps, cs, ts⟩ := o; cases h; rfl

theorem denote_single_of {o : StdOp ℝ} {q : ℕ} {M : Mat1} (h : o.type.isSingleQubitGate = true)
    (ht : o.targets = [q]) (hM : gate1 o.type o.params = some M) :
    o.denote = some (ctl o.controls (app1 M q)) := by
  rw [denote_single h, ht, hM]

theorem denote_two_of {o : StdOp ℝ} {q0 q1 : ℕ} {M : Mat2} (h : o.type.isTwoQubitGate = true)
    (ht : o.targets = [q0, q1]) (hM : gate2 o.type o.params = some M) :
    o.denote = some (ctl o.controls (app2 M q0 q1)) := by
  rw [denote_two h, ht, hM]

/-- The four ways an operation can have a meaning. -/
theorem denote_cases {o : StdOp ℝ} {f : State → State} (h : o.denote = some f) :
    (o.type = barrier ∧ f = fun ψ => ψ) ∨
    (o.type = gphase ∧ ∃ θ, o.params[0]? = some θ ∧ f = ctl o.controls (phase ⟨cos θ, sin θ⟩)) ∨
    (o.type.isSingleQubitGate = true ∧ ∃ q M, o.targets = [q] ∧ gate1 o.type o.params = some M ∧
      f = ctl o.controls (app1 M q)) ∨
    (o.type.isTwoQubitGate = true ∧ ∃ q0 q1 M, o.targets = [q0, q1] ∧
      gate2 o.type o.params = some M ∧ f = ctl o.controls (app2 M q0 q1)) := by
  by_cases hb : o.type = barrier
  · left; rw [denote_barrier hb] at h; exact ⟨hb, (Option.some.inj h).symm⟩
  by_cases hg : o.type = gphase
  · right; left
    rw [denote_gphase hg, Option.map_eq_some_iff] at h
    obtain ⟨θ, h1, h2⟩ := h
    exact ⟨hg, θ, h1, h2.symm⟩
  right; right
  by_cases h1 : o.type.isSingleQubitGate = true
  · left
    rw [denote_single h1] at h
    split at h
    · rename_i q M e1 e2; exact ⟨h1, q, M, e1, e2, (Option.some.inj h).symm⟩
    · cases h
  · right
    have h2 : o.denote = match o.targets, gate2 o.type o.params with
      | [q0, q1], some M => some (ctl o.controls (app2 M q0 q1))
      | _, _ => Option.none := by
      obtain ⟨ty, ps, cs, ts⟩ := o
      cases ty <;> first | rfl | exact absurd rfl hb | exact absurd rfl hg | exact absurd rfl h1
    rw [h2] at h
    split at h
    · rename_i q0 q1 M e1 e2
      refine ⟨?_, q0, q1, M, e1, e2, (Option.some.inj h).symm⟩
      revert e2
      cases o.type <;> simp [gate2, isTwoQubitGate]
    · cases h

/-! ### Inversion and the conjugate transpose -/

theorem mapFirst_eq_some {f : P → P} {l l' : List P} (h : mapFirst f l = some l') :
    ∃ a r, l = a :: r ∧ l' = f a :: r := by
  cases l with
  | nil => cases h
  | cons a r => exact ⟨a, r, rfl, (Option.some.inj h).symm⟩

macro "dag1" : tactic => `(tactic| (
  rw [conjTranspose_mat1]; congr 1; apply mat1_congr <;> cplx <;> first | ring1 | grind))
macro "dag2" : tactic => `(tactic| (
  rw [conjTranspose_mat2]; congr 1; apply mat2_congr <;> cplx <;> first | ring1 | grind))

theorem uMat_dag (a b c : ℝ) : uMat (-b) (-a) (-c) = (uMat a b c).conjTranspose := by
  unfold uMat
  rw [conjTranspose_mat1]
  have e : -c / 2 = -(c / 2) := by ring
  have e' : -b + -a = -(a + b) := by ring
  rw [e, e']
  simp only [Real.cos_neg, Real.sin_neg]
  apply mat1_congr <;> cplx <;> ring

theorem u2Mat_dag (a b a' b' : ℝ) (h1 : cos a' = -cos b) (h2 : sin a' = sin b)
    (h3 : cos b' = -cos a) (h4 : sin b' = sin a) :
    u2Mat a' b' = (u2Mat a b).conjTranspose := by
  unfold u2Mat
  rw [conjTranspose_mat1]
  simp only [Real.cos_add, Real.sin_add, h1, h2, h3, h4]
  apply mat1_congr <;> cplx <;> ring

theorem pMat_dag (a : ℝ) : pMat (-a) = (pMat a).conjTranspose := by
  unfold pMat
  rw [conjTranspose_mat1]
  simp only [Real.cos_neg, Real.sin_neg]
  apply mat1_congr <;> cplx <;> ring

theorem rxMat_dag (a : ℝ) : rxMat (-a) = (rxMat a).conjTranspose := by
  unfold rxMat
  rw [conjTranspose_mat1, show -a / 2 = -(a / 2) by ring]
  simp only [Real.cos_neg, Real.sin_neg]
  apply mat1_congr <;> cplx <;> ring

theorem ryMat_dag (a : ℝ) : ryMat (-a) = (ryMat a).conjTranspose := by
  unfold ryMat
  rw [conjTranspose_mat1, show -a / 2 = -(a / 2) by ring]
  simp only [Real.cos_neg, Real.sin_neg]
  apply mat1_congr <;> cplx <;> ring

theorem rzMat_dag (a : ℝ) : rzMat (-a) = (rzMat a).conjTranspose := by
  unfold rzMat
  rw [conjTranspose_mat1, show -a / 2 = -(a / 2) by ring]
  simp only [Real.cos_neg, Real.sin_neg]
  apply mat1_congr <;> cplx <;> ring

theorem rxxMat_dag (a : ℝ) : rxxMat (-a) = (rxxMat a).conjTranspose := by
  unfold rxxMat
  dsimp only
  rw [conjTranspose_mat2, show -a / 2 = -(a / 2) by ring]
  simp only [Real.cos_neg, Real.sin_neg]
  apply mat2_congr <;> cplx <;> ring

theorem ryyMat_dag (a : ℝ) : ryyMat (-a) = (ryyMat a).conjTranspose := by
  unfold ryyMat
  dsimp only
  rw [conjTranspose_mat2, show -a / 2 = -(a / 2) by ring]
  simp only [Real.cos_neg, Real.sin_neg]
  apply mat2_congr <;> cplx <;> ring

theorem rzzMat_dag (a : ℝ) : rzzMat (-a) = (rzzMat a).conjTranspose := by
  unfold rzzMat
  dsimp only
  rw [conjTranspose_mat2, show -a / 2 = -(a / 2) by ring]
  simp only [Real.cos_neg, Real.sin_neg]
  apply mat2_congr <;> cplx <;> ring

theorem rzxMat_dag (a : ℝ) : rzxMat (-a) = (rzxMat a).conjTranspose := by
  unfold rzxMat
  dsimp only
  rw [conjTranspose_mat2, show -a / 2 = -(a / 2) by ring]
  simp only [Real.cos_neg, Real.sin_neg]
  apply mat2_congr <;> cplx <;> ring

theorem xxMinusYYMat_dag (a b : ℝ) : xxMinusYYMat (-a) b = (xxMinusYYMat a b).conjTranspose := by
  unfold xxMinusYYMat
  dsimp only
  rw [conjTranspose_mat2, show -a / 2 = -(a / 2) by ring]
  simp only [Real.cos_neg, Real.sin_neg]
  apply mat2_congr <;> cplx <;> ring

theorem xxPlusYYMat_dag (a b : ℝ) : xxPlusYYMat (-a) b = (xxPlusYYMat a b).conjTranspose := by
  unfold xxPlusYYMat
  dsimp only
  rw [conjTranspose_mat2, show -a / 2 = -(a / 2) by ring]
  simp only [Real.cos_neg, Real.sin_neg]
  apply mat2_congr <;> cplx <;> ring

/-- What an inverse operation has to satisfy: same controls, conjugate-transposed matrix on the
same targets (or the transposed index order on exchanged targets). -/
structure IsInv (o o' : StdOp ℝ) : Prop where
  ctrl : o'.controls = o.controls
  barrier : o.type = barrier → o'.type = OpType.barrier
  gphase : o.type = gphase → o'.type = OpType.gphase ∧
    ∀ θ : ℝ, o.params[0]? = some θ → o'.params[0]? = some (-θ)
  single : o.type.isSingleQubitGate = true → o'.type.isSingleQubitGate = true ∧
    o'.targets = o.targets ∧
    ∀ M, gate1 o.type o.params = some M → gate1 o'.type o'.params = some M.conjTranspose
  two : o.type.isTwoQubitGate = true → o'.type.isTwoQubitGate = true ∧
    ∀ M, gate2 o.type o.params = some M →
      (o'.targets = o.targets ∧ gate2 o'.type o'.params = some M.conjTranspose) ∨
      (∃ a b, o.targets = [a, b] ∧ o'.targets = [b, a] ∧
        gate2 o'.type o'.params = some (M.conjTranspose.submatrix Prod.swap Prod.swap)) ∨
      o.targets.length ≠ 2

theorem gate1_dag_fixed {ty ty' : OpType} {ps : List ℝ}
    (h : (ty, ty') ∈ [(i, i), (x, x), (y, y), (z, z), (h, h), (s, sdg), (sdg, s), (t, tdg),
      (tdg, t), (v, vdg), (vdg, v), (sx, sxdg), (sxdg, sx)]) (M : Mat1)
    (hM : gate1 ty ps = some M) : gate1 ty' ps = some M.conjTranspose := by
  simp only [List.mem_cons, Prod.mk.injEq, List.not_mem_nil, or_false] at h
  rcases h with ⟨rfl, rfl⟩ | ⟨rfl, rfl⟩ | ⟨rfl, rfl⟩ | ⟨rfl, rfl⟩ | ⟨rfl, rfl⟩ | ⟨rfl, rfl⟩ |
    ⟨rfl, rfl⟩ | ⟨rfl, rfl⟩ | ⟨rfl, rfl⟩ | ⟨rfl, rfl⟩ | ⟨rfl, rfl⟩ | ⟨rfl, rfl⟩ | ⟨rfl, rfl⟩ <;>
  (simp only [gate1, Option.some.injEq] at hM ⊢; subst hM; rw [conjTranspose_mat1];
   apply mat1_congr <;> cplx <;> first | ring1 | grind)

theorem gate2_dag_fixed {ty ty' : OpType} {ps : List ℝ}
    (h : (ty, ty') ∈ [(swap, swap), (ecr, ecr), (iswap, iswapdg), (iswapdg, iswap),
      (peres, peresdg), (peresdg, peres)]) (M : Mat2)
    (hM : gate2 ty ps = some M) : gate2 ty' ps = some M.conjTranspose := by
  simp only [List.mem_cons, Prod.mk.injEq, List.not_mem_nil, or_false] at h
  rcases h with ⟨rfl, rfl⟩ | ⟨rfl, rfl⟩ | ⟨rfl, rfl⟩ | ⟨rfl, rfl⟩ | ⟨rfl, rfl⟩ | ⟨rfl, rfl⟩ <;>
  (simp only [gate2, Option.some.injEq] at hM ⊢; subst hM; rw [conjTranspose_mat2];
   apply mat2_congr <;> cplx <;> first | ring1 | grind)

theorem dcx_dag : ∀ M ps, gate2 dcx ps = some M →
    gate2 dcx ps = some (M.conjTranspose.submatrix Prod.swap Prod.swap) := by
  intro M ps hM
  simp only [gate2, Option.some.injEq] at hM ⊢
  subst hM
  ext ⟨r0, r1⟩ ⟨c0, c1⟩
  cases r0 <;> cases r1 <;> cases c0 <;> cases c1 <;>
    simp [mat2, Matrix.submatrix_apply, Matrix.conjTranspose_apply]

macro "fin1" : tactic => `(tactic| (
  refine ⟨rfl, by simp, by simp, fun _ => ⟨rfl, rfl, ?_⟩, by simp [isTwoQubitGate]⟩))
macro "fin2" : tactic => `(tactic| (
  refine ⟨rfl, by simp, by simp, by simp [isSingleQubitGate], fun _ => ⟨rfl, fun M hM => Or.inl ⟨rfl, ?_⟩⟩⟩))

theorem neg_gate1 {ty : OpType} (hty : ty ∈ [p, rx, ry, rz]) {a : ℝ} {r : List ℝ} (M : Mat1)
    (hM : gate1 ty (a :: r) = some M) : gate1 ty (-a :: r) = some M.conjTranspose := by
  simp only [List.mem_cons, List.not_mem_nil, or_false] at hty
  rcases hty with rfl | rfl | rfl | rfl <;>
    simp only [gate1, List.getElem?_cons_zero, Option.map_some, Option.some.injEq] at hM ⊢ <;>
    subst hM
  · exact pMat_dag a
  · exact rxMat_dag a
  · exact ryMat_dag a
  · exact rzMat_dag a

theorem neg_gate2 {ty : OpType} (hty : ty ∈ [rxx, ryy, rzz, rzx, xxminusyy, xxplusyy]) {a : ℝ}
    {r : List ℝ} (M : Mat2) (hM : gate2 ty (a :: r) = some M) :
    gate2 ty (-a :: r) = some M.conjTranspose := by
  simp only [List.mem_cons, List.not_mem_nil, or_false] at hty
  rcases hty with rfl | rfl | rfl | rfl | rfl | rfl
  · simp only [gate2, List.getElem?_cons_zero, Option.map_some, Option.some.injEq] at hM ⊢
    subst hM; exact rxxMat_dag a
  · simp only [gate2, List.getElem?_cons_zero, Option.map_some, Option.some.injEq] at hM ⊢
    subst hM; exact ryyMat_dag a
  · simp only [gate2, List.getElem?_cons_zero, Option.map_some, Option.some.injEq] at hM ⊢
    subst hM; exact rzzMat_dag a
  · simp only [gate2, List.getElem?_cons_zero, Option.map_some, Option.some.injEq] at hM ⊢
    subst hM; exact rzxMat_dag a
  all_goals
    cases r with
    | nil => simp [gate2] at hM
    | cons b r =>
      simp only [gate2, List.getElem?_cons_zero, List.getElem?_cons_succ, Option.some.injEq]
        at hM ⊢
      subst hM
      first | exact xxMinusYYMat_dag a b | exact xxPlusYYMat_dag a b

theorem invert_isInv {o o' : StdOp ℝ} (h : o.invert = some o') : IsInv o o' := by
  obtain ⟨ty, ps, cs, ts⟩ := o
  cases ty <;> simp only [invert, Option.some.injEq, reduceCtorEq, Option.map_eq_some_iff] at h
  case u2 =>
    split at h
    · injection h with h; subst h
      rename_i _ a b l
      fin1
      intro M hM
      simp only [gate1, List.getElem?_cons_zero, List.getElem?_cons_succ, Option.some.injEq] at hM ⊢
      subst hM
      apply u2Mat_dag
      · rw [Real.cos_sub_pi, Real.cos_neg]
      · rw [Real.sin_sub_pi, Real.sin_neg, neg_neg]
      · rw [Real.cos_add_pi, Real.cos_neg]
      · rw [Real.sin_add_pi, Real.sin_neg, neg_neg]
    · cases h
  case u =>
    split at h
    · injection h with h; subst h
      rename_i _ a b c l
      fin1
      intro M hM
      simp only [gate1, List.getElem?_cons_zero, List.getElem?_cons_succ, Option.some.injEq] at hM ⊢
      subst hM
      exact uMat_dag c b a
    · cases h
  case dcx =>
    split at h
    · injection h with h; subst h
      rename_i _ a b l
      refine ⟨rfl, by simp, by simp, by simp [isSingleQubitGate], fun _ => ⟨rfl, fun M hM => ?_⟩⟩
      cases l with
      | nil => exact Or.inr (Or.inl ⟨a, b, rfl, rfl, dcx_dag M ps hM⟩)
      | cons c l => right; right; simp
    · cases h
  case gphase =>
    obtain ⟨ps', h1, rfl⟩ := h
    obtain ⟨a, r, rfl, rfl⟩ := mapFirst_eq_some h1
    refine ⟨rfl, by simp, fun _ => ⟨rfl, ?_⟩, by simp [isSingleQubitGate], by simp [isTwoQubitGate]⟩
    intro θ hθ
    simp only [List.getElem?_cons_zero, Option.some.injEq] at hθ ⊢
    rw [hθ]
  case barrier =>
    subst h
    exact ⟨rfl, fun _ => rfl, by simp, by simp [isSingleQubitGate], by simp [isTwoQubitGate]⟩
  case p | rx | ry | rz =>
    obtain ⟨ps', h1, rfl⟩ := h
    obtain ⟨a, r, rfl, rfl⟩ := mapFirst_eq_some h1
    fin1
    exact neg_gate1 (by simp)
  case rxx | ryy | rzz | rzx | xxminusyy | xxplusyy =>
    obtain ⟨ps', h1, rfl⟩ := h
    obtain ⟨a, r, rfl, rfl⟩ := mapFirst_eq_some h1
    fin2
    exact neg_gate2 (by simp) _ (by assumption)
  case swap | ecr | iswap | iswapdg | peres | peresdg =>
    subst h
    fin2
    refine gate2_dag_fixed ?_ _ (by assumption)
    simp
  all_goals
    subst h
    fin1
    exact gate1_dag_fixed (by simp)

theorem ddInvert_isInv {o o' : StdOp ℝ} (h : o.ddInvert = some o') : IsInv o o' := by
  obtain ⟨ty, ps, cs, ts⟩ := o
  cases ty <;> simp only [ddInvert, Option.some.injEq, reduceCtorEq, Option.map_eq_some_iff] at h
  case u2 =>
    split at h
    · injection h with h; subst h
      rename_i _ a b l
      fin1
      intro M hM
      simp only [gate1, List.getElem?_cons_zero, List.getElem?_cons_succ, Option.some.injEq] at hM ⊢
      subst hM
      apply u2Mat_dag
      · rw [Real.cos_add_pi, Real.cos_neg]
      · rw [Real.sin_add_pi, Real.sin_neg, neg_neg]
      · rw [Real.cos_sub_pi, Real.cos_neg]
      · rw [Real.sin_sub_pi, Real.sin_neg, neg_neg]
    · cases h
  case u =>
    split at h
    · injection h with h; subst h
      rename_i _ a b c l
      fin1
      intro M hM
      simp only [gate1, List.getElem?_cons_zero, List.getElem?_cons_succ, Option.some.injEq] at hM ⊢
      subst hM
      exact uMat_dag c b a
    · cases h
  case dcx =>
    split at h
    · injection h with h; subst h
      rename_i _ a b
      refine ⟨rfl, by simp, by simp, by simp [isSingleQubitGate], fun _ => ⟨rfl, fun M hM => ?_⟩⟩
      exact Or.inr (Or.inl ⟨a, b, rfl, rfl, dcx_dag M ps hM⟩)
    · cases h
  case p | rx | ry | rz =>
    obtain ⟨ps', h1, rfl⟩ := h
    obtain ⟨a, r, rfl, rfl⟩ := mapFirst_eq_some h1
    fin1
    exact neg_gate1 (by simp)
  case rxx | ryy | rzz | rzx | xxminusyy | xxplusyy =>
    obtain ⟨ps', h1, rfl⟩ := h
    obtain ⟨a, r, rfl, rfl⟩ := mapFirst_eq_some h1
    fin2
    exact neg_gate2 (by simp) _ (by assumption)
  case swap | ecr =>
    subst h
    fin2
    refine gate2_dag_fixed ?_ _ (by assumption)
    simp
  case iswap | iswapdg | peres | peresdg =>
    obtain ⟨ty', h1, rfl⟩ := h
    revert h1
    rw [show OpType.flipInv _ = some _ from rfl]
    intro h1
    injection h1 with h1; subst h1
    fin2
    refine gate2_dag_fixed ?_ _ (by assumption)
    simp
  case s | sdg | t | tdg | v | vdg | sx | sxdg =>
    obtain ⟨ty', h1, rfl⟩ := h
    revert h1
    rw [show OpType.flipInv _ = some _ from rfl]
    intro h1
    injection h1 with h1; subst h1
    fin1
    exact gate1_dag_fixed (by simp)
  all_goals
    subst h
    fin1
    exact gate1_dag_fixed (by simp)

theorem polar_mul_neg (θ : ℝ) : (⟨cos (-θ), sin (-θ)⟩ : ℂ) * ⟨cos θ, sin θ⟩ = 1 := by
  have h1 := Real.sin_sq_add_cos_sq θ
  rw [Real.cos_neg, Real.sin_neg]
  cplx
  · linear_combination h1
  · ring

theorem ctl_phase_mul (cs : Finset Ctrl) (z w : ℂ) (ψ : State) :
    ctl cs (phase z) (ctl cs (phase w) ψ) = ctl cs (phase (z * w)) ψ := by
  funext x
  simp only [ctl, phase]
  split_ifs <;> ring

theorem ctl_phase_one (cs : Finset Ctrl) (ψ : State) : ctl cs (phase 1) ψ = ψ := by
  funext x
  simp [ctl, phase]

theorem IsInv.undo {o o' : StdOp ℝ} (hi : IsInv o o') (wf : o.WF) {f : State → State}
    (hf : o.denote = some f) :
    ∃ g, o'.denote = some g ∧ (∀ ψ, g (f ψ) = ψ) ∧ ∀ ψ, f (g ψ) = ψ := by
  rcases denote_cases hf with ⟨hb, rfl⟩ | ⟨hg, θ, h1, rfl⟩ | ⟨hs, q, M, h1, h2, rfl⟩ |
    ⟨ht, q0, q1, M, h1, h2, rfl⟩
  · exact ⟨_, denote_barrier (hi.barrier hb), fun _ => rfl, fun _ => rfl⟩
  · obtain ⟨a, b⟩ := hi.gphase hg
    refine ⟨ctl o.controls (phase ⟨cos (-θ), sin (-θ)⟩), ?_, ?_, ?_⟩
    · rw [denote_gphase a, b θ h1, hi.ctrl]; rfl
    · intro ψ; rw [ctl_phase_mul, polar_mul_neg, ctl_phase_one]
    · intro ψ; rw [ctl_phase_mul, mul_comm, polar_mul_neg, ctl_phase_one]
  · obtain ⟨a, b, c⟩ := hi.single hs
    have hq : q ∉ ctrlQubits o.controls := wf.disj q (by rw [h1]; simp)
    obtain ⟨u1, u2⟩ := gate1_unitary _ _ _ h2
    refine ⟨_, denote_single_of a (b.trans h1) (c M h2), ?_, ?_⟩ <;> intro ψ <;> rw [hi.ctrl]
    · rw [ctl_app1_mul hq, u2, ctl_app1_one]
    · rw [ctl_app1_mul hq, u1, ctl_app1_one]
  · obtain ⟨a, b⟩ := hi.two ht
    have hq0 : q0 ∉ ctrlQubits o.controls := wf.disj q0 (by rw [h1]; simp)
    have hq1 : q1 ∉ ctrlQubits o.controls := wf.disj q1 (by rw [h1]; simp)
    have hne : q0 ≠ q1 := by
      have := wf.nodup; rw [h1] at this; simp at this; exact this
    obtain ⟨u1, u2⟩ := gate2_unitary _ _ _ h2
    rcases b M h2 with ⟨c, d⟩ | ⟨q0', q1', c, d, e⟩ | c
    · refine ⟨_, denote_two_of a (c.trans h1) d, ?_, ?_⟩ <;> intro ψ <;> rw [hi.ctrl]
      · rw [ctl_app2_mul hq0 hq1 hne, u2, ctl_app2_one]
      · rw [ctl_app2_mul hq0 hq1 hne, u1, ctl_app2_one]
    · rw [h1] at c
      injection c with c1 c2; injection c2 with c2; subst c1 c2
      have hsw : app2 (M.conjTranspose.submatrix Prod.swap Prod.swap) q1 q0 =
          app2 M.conjTranspose q0 q1 := by
        funext φ
        rw [app2_swap _ hne]
        rfl
      refine ⟨_, denote_two_of a d e, ?_, ?_⟩ <;> intro ψ <;> rw [hi.ctrl, hsw]
      · rw [ctl_app2_mul hq0 hq1 hne, u2, ctl_app2_one]
      · rw [ctl_app2_mul hq0 hq1 hne, u1, ctl_app2_one]
    · rw [h1] at c; exact absurd rfl c

end StdOp
end MQT.IR
