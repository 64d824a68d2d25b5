/-
Reference semantics of quantum operations, independent of the library's data structures.

A basis state assigns a bit to every qubit (`Bits = ℕ → Bool`, qubit index = `qc::Qubit`), a
state vector assigns an amplitude to every basis state.  A gate acts on one or two target
qubits by its matrix and on no other qubit; a control set makes it act only on the basis states
in which every control qubit has the demanded value.  Using all of `ℕ` as qubit index set keeps
the semantics independent of the register size: an operation on a register of `n` qubits never
looks at bits `≥ n`.

For two targets the first target is the more significant bit of the matrix index, as in
`Package::makeTwoQubitGateDD` (src/dd/Package.cpp 427-538).
-/
import Mathlib.Data.Complex.Basic
import Mathlib.Data.Matrix.Mul
import Mathlib.LinearAlgebra.Matrix.ConjTranspose
import Mathlib.Data.Fintype.BigOperators
import Mathlib.Logic.Function.Basic
import Mathlib.Tactic.Ring

set_option autoImplicit false
set_option linter.unusedSectionVars false

namespace MQT.IR

open Function

/-- A computational basis state. -/
abbrev Bits := ℕ → Bool

/-- A state vector: one amplitude for every basis state. -/
abbrev State := Bits → ℂ

abbrev Mat1 := Matrix Bool Bool ℂ
abbrev Mat2 := Matrix (Bool × Bool) (Bool × Bool) ℂ

/-- A one-qubit gate on qubit `t`. -/
noncomputable def app1 (M : Mat1) (t : ℕ) (ψ : State) : State :=
  fun x => ∑ b : Bool, M (x t) b * ψ (update x t b)

/-- A two-qubit gate; `t0` is the more significant bit of the matrix index. -/
noncomputable def app2 (M : Mat2) (t0 t1 : ℕ) (ψ : State) : State :=
  fun x => ∑ b : Bool × Bool, M (x t0, x t1) b * ψ (update (update x t0 b.1) t1 b.2)

/-- A control: qubit and demanded value (`true` = `Control::Type::Pos`). -/
abbrev Ctrl := ℕ × Bool

/-- The controls are satisfied by a basis state. -/
def Sat (cs : Finset Ctrl) (x : Bits) : Prop := ∀ c ∈ cs, x c.1 = c.2

instance (cs : Finset Ctrl) (x : Bits) : Decidable (Sat cs x) := by
  unfold Sat; infer_instance

/-- Perform `A` only on the basis states that satisfy the controls. -/
def ctl (cs : Finset Ctrl) (A : State → State) (ψ : State) : State :=
  fun x => if Sat cs x then A ψ x else ψ x

/-- Multiply by a scalar. -/
def phase (z : ℂ) (ψ : State) : State := fun x => z * ψ x

/-- Qubits used as controls. -/
def ctrlQubits (cs : Finset Ctrl) : Finset ℕ := cs.image Prod.fst

theorem sat_update {cs : Finset Ctrl} {t : ℕ} (ht : t ∉ ctrlQubits cs) (x : Bits) (b : Bool) :
    Sat cs (update x t b) ↔ Sat cs x := by
  have key : ∀ c ∈ cs, update x t b c.1 = x c.1 := by
    intro c hc
    apply update_of_ne
    rintro rfl
    exact ht (Finset.mem_image_of_mem _ hc)
  constructor
  · intro h c hc; rw [← key c hc]; exact h c hc
  · intro h c hc; rw [key c hc]; exact h c hc

theorem app1_one (t : ℕ) (ψ : State) : app1 1 t ψ = ψ := by
  funext x
  unfold app1
  rw [Finset.sum_eq_single (x t)]
  · simp
  · intro b _ hb; rw [Matrix.one_apply_ne (Ne.symm hb), zero_mul]
  · intro h; exact absurd (Finset.mem_univ _) h

theorem app1_mul (M N : Mat1) (t : ℕ) (ψ : State) :
    app1 M t (app1 N t ψ) = app1 (M * N) t ψ := by
  funext x
  simp only [app1, Matrix.mul_apply, update_self, update_idem]
  simp only [Finset.mul_sum, Finset.sum_mul]
  rw [Finset.sum_comm]
  simp only [mul_assoc]

theorem app2_one {t0 t1 : ℕ} (ψ : State) : app2 1 t0 t1 ψ = ψ := by
  funext x
  unfold app2
  rw [Finset.sum_eq_single (x t0, x t1)]
  · simp
  · intro b _ hb; rw [Matrix.one_apply_ne (Ne.symm hb), zero_mul]
  · intro h; exact absurd (Finset.mem_univ _) h

theorem update_pair {x : Bits} {t0 t1 : ℕ} (h : t0 ≠ t1) (a b c d : Bool) :
    update (update (update (update x t0 a) t1 b) t0 c) t1 d = update (update x t0 c) t1 d := by
  rw [update_comm (Ne.symm h), update_idem, update_idem]

theorem app2_mul (M N : Mat2) {t0 t1 : ℕ} (h : t0 ≠ t1) (ψ : State) :
    app2 M t0 t1 (app2 N t0 t1 ψ) = app2 (M * N) t0 t1 ψ := by
  funext x
  simp only [app2, Matrix.mul_apply, update_pair h, update_self, update_of_ne h]
  simp only [Finset.mul_sum, Finset.sum_mul]
  rw [Finset.sum_comm]
  simp only [mul_assoc]

/-- Exchanging the two targets amounts to exchanging the two bits of the matrix index. -/
theorem app2_swap (M : Mat2) {t0 t1 : ℕ} (h : t0 ≠ t1) (ψ : State) :
    app2 M t1 t0 ψ = app2 (M.submatrix Prod.swap Prod.swap) t0 t1 ψ := by
  funext x
  simp only [app2, Fintype.sum_prod_type, Matrix.submatrix_apply, Prod.swap_prod_mk]
  rw [Finset.sum_comm]
  simp only [update_comm h]

theorem ctl_comp {cs : Finset Ctrl} {A B : State → State}
    (hA : ∀ ψ φ : State, (∀ x, Sat cs x → ψ x = φ x) → ∀ x, Sat cs x → A ψ x = A φ x)
    (ψ : State) : ctl cs A (ctl cs B ψ) = ctl cs (A ∘ B) ψ := by
  funext x
  unfold ctl
  by_cases h : Sat cs x
  · simp only [h, if_true, comp_apply]
    refine hA _ _ ?_ x h
    intro y hy
    simp only [hy, if_true]
  · simp only [h, if_false]

theorem app1_local {cs : Finset Ctrl} {t : ℕ} (ht : t ∉ ctrlQubits cs) (M : Mat1) (ψ φ : State)
    (h : ∀ x, Sat cs x → ψ x = φ x) (x : Bits) (hx : Sat cs x) : app1 M t ψ x = app1 M t φ x := by
  unfold app1
  refine Finset.sum_congr rfl fun b _ => ?_
  rw [h _ ((sat_update ht x b).2 hx)]

theorem app2_local {cs : Finset Ctrl} {t0 t1 : ℕ} (h0 : t0 ∉ ctrlQubits cs)
    (h1 : t1 ∉ ctrlQubits cs) (M : Mat2) (ψ φ : State)
    (h : ∀ x, Sat cs x → ψ x = φ x) (x : Bits) (hx : Sat cs x) :
    app2 M t0 t1 ψ x = app2 M t0 t1 φ x := by
  unfold app2
  refine Finset.sum_congr rfl fun b _ => ?_
  rw [h _ ((sat_update h1 _ _).2 ((sat_update h0 x b.1).2 hx))]

theorem ctl_app1_mul {cs : Finset Ctrl} {t : ℕ} (ht : t ∉ ctrlQubits cs) (M N : Mat1)
    (ψ : State) : ctl cs (app1 M t) (ctl cs (app1 N t) ψ) = ctl cs (app1 (M * N) t) ψ := by
  rw [ctl_comp (app1_local ht M)]
  congr 1
  funext φ
  exact app1_mul M N t φ

theorem ctl_app2_mul {cs : Finset Ctrl} {t0 t1 : ℕ} (h0 : t0 ∉ ctrlQubits cs)
    (h1 : t1 ∉ ctrlQubits cs) (h : t0 ≠ t1) (M N : Mat2) (ψ : State) :
    ctl cs (app2 M t0 t1) (ctl cs (app2 N t0 t1) ψ) = ctl cs (app2 (M * N) t0 t1) ψ := by
  rw [ctl_comp (app2_local h0 h1 M)]
  congr 1
  funext φ
  exact app2_mul M N h φ

theorem ctl_id (cs : Finset Ctrl) (ψ : State) : ctl cs (fun φ => φ) ψ = ψ := by
  funext x; simp [ctl]

theorem ctl_app1_one (cs : Finset Ctrl) (t : ℕ) (ψ : State) : ctl cs (app1 1 t) ψ = ψ := by
  have : app1 1 t = fun φ => φ := funext fun φ => app1_one t φ
  rw [this, ctl_id]

theorem ctl_app2_one (cs : Finset Ctrl) (t0 t1 : ℕ) (ψ : State) :
    ctl cs (app2 1 t0 t1) ψ = ψ := by
  have : app2 1 t0 t1 = fun φ => φ := funext fun φ => app2_one φ
  rw [this, ctl_id]

theorem ctl_empty (A : State → State) : ctl ∅ A = A := by
  funext ψ x; simp [ctl, Sat]

end MQT.IR
