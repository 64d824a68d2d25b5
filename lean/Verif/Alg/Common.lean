/-
Shared vocabulary for the circuits that `src/algorithms` generates: the gates the generators
append (`include/mqt-core/ir/QuantumComputation.hpp`, gate macros of
`src/ir/QuantumComputation.cpp` 1312-1528) as operations, and what each does to amplitudes.

Simplification: angles are exact reals and are stored as given.  The canonicalisation performed by
the constructor of `StandardOperation` is the subject of C21; with tolerance 0 it changes nothing.
-/
import Verif.Sim.Functionality
import Mathlib.Analysis.SpecialFunctions.Complex.Circle

set_option autoImplicit false
set_option linter.unusedSectionVars false

noncomputable section

open Function (update)

namespace MQT.Alg

open MQT.IR MQT.Opt MQT.Sim

/-! ### Gates -/

/-- `qc.op(params, target)`. -/
def gate (ty : OpType) (q : ℕ) (ps : List ℝ := []) : Op ℝ :=
  .std { type := ty, params := ps, targets := [q] }
/-- `qc.cop(params, control, target)`. -/
def cgate (ty : OpType) (c q : ℕ) (ps : List ℝ := []) : Op ℝ :=
  .std { type := ty, params := ps, controls := {(c, true)}, targets := [q] }
/-- `qc.swap(a, b)`. -/
def swapG (a b : ℕ) : Op ℝ := .std { type := .swap, targets := [a, b] }
/-- `qc.measure(qubit, bit)` (QuantumComputation.cpp 1530-1537). -/
def measG (q b : ℕ) : Op ℝ := .measure [q] [b]

/-! ### What they do -/

/-- The state `|0…0⟩` of the first `n` qubits. -/
def ket0 (n : ℕ) : State := fun x => if ∀ q < n, x q = false then 1 else 0

/-- The sign of a bit. -/
def sgn (b : Bool) : ℂ := if b then -1 else 1

/-- `exp (i θ)`. -/
def cis (θ : ℝ) : ℂ := Complex.exp (θ * Complex.I)

theorem cis_eq (θ : ℝ) : (⟨Real.cos θ, Real.sin θ⟩ : ℂ) = cis θ := by
  rw [cis]
  apply Complex.ext
  · exact (Complex.exp_ofReal_mul_I_re θ).symm
  · exact (Complex.exp_ofReal_mul_I_im θ).symm

theorem cis_add (a b : ℝ) : cis (a + b) = cis a * cis b := by
  unfold cis; rw [← Complex.exp_add]; congr 1; push_cast; ring

theorem cis_zero : cis 0 = 1 := by simp [cis]

theorem cis_pi : cis Real.pi = -1 := by rw [cis]; exact Complex.exp_pi_mul_I

theorem cis_two_pi : cis (2 * Real.pi) = 1 := by
  rw [cis]; push_cast; exact Complex.exp_two_pi_mul_I

theorem cis_int (k : ℤ) : cis (k * (2 * Real.pi)) = 1 := by
  rw [cis]; push_cast
  have := Complex.exp_int_mul_two_pi_mul_I k
  rw [← this]; congr 1; ring

theorem cis_nat (k : ℕ) : cis (k * (2 * Real.pi)) = 1 := by
  have := cis_int k
  rwa [Int.cast_natCast] at this

theorem cis_sum {ι : Type} (s : Finset ι) (f : ι → ℝ) : cis (∑ i ∈ s, f i) = ∏ i ∈ s, cis (f i) := by
  classical
  induction s using Finset.induction_on with
  | empty => simp [cis_zero]
  | insert a s ha ih => rw [Finset.sum_insert ha, Finset.prod_insert ha, cis_add, ih]

theorem cis_half : cis (Real.pi / 2) = ⟨0, 1⟩ := by rw [← cis_eq]; simp
theorem cis_quarter : cis (Real.pi / 4) = ⟨r2, r2⟩ := by rw [← cis_eq]; simp [r2]

theorem sgn_eq (b : Bool) : sgn b = cis (if b then Real.pi else 0) := by
  cases b
  · simp [sgn, cis_zero]
  · simp [sgn, cis_pi]

theorem acts_std {o : StdOp ℝ} {f : State → State} (h : o.denote = some f) : Acts (.std o) f :=
  fun c => by rw [exec, h]; rfl

/-- Flip qubit `q` of a basis state. -/
def flipB (q : ℕ) (x : Bits) : Bits := update x q (!x q)

theorem acts_h (q : ℕ) : Acts (gate .h q) (hadF q) := hOp_exec q

theorem hadF_apply (q : ℕ) (ψ : State) (x : Bits) :
    hadF q ψ x = r2 * (ψ (update x q false) + sgn (x q) * ψ (update x q true)) := by
  unfold hadF app1 hadM
  rw [Fintype.sum_bool]
  cases x q <;> simp [mat1, sgn] <;> ring

theorem acts_x (q : ℕ) : Acts (gate .x q) (pull (flipB q)) := by
  apply acts_std
  rw [StdOp.denote_single_of (q := q) (M := mat1 0 1 1 0) rfl rfl rfl]
  congr 1
  funext ψ x
  rw [ctl_empty]
  simp only [app1, Fintype.sum_bool, mat1, pull, flipB]
  cases x q <;> simp

theorem acts_cx (c t : ℕ) : Acts (cgate .x c t) (pull (cxMap c t)) :=
  acts_std (cnot_denote rfl rfl rfl)

theorem acts_swap (a b : ℕ) : Acts (swapG a b) (pull (swapMap a b)) :=
  acts_std (swap_denote rfl rfl rfl)

/-- Multiply the amplitudes of the basis states with `x c = x t = 1` by `exp (i θ)`. -/
def cphF (c t : ℕ) (θ : ℝ) (ψ : State) : State :=
  fun x => (if x c = true ∧ x t = true then cis θ else 1) * ψ x

theorem acts_cdiag {ty : OpType} {ps : List ℝ} (h1 : ty.isSingleQubitGate = true) {θ : ℝ}
    (h : gate1 ty ps = some (mat1 1 0 0 (cis θ))) (c t : ℕ) : Acts (cgate ty c t ps) (cphF c t θ) := by
  apply acts_std
  rw [StdOp.denote_single_of (q := t) h1 rfl h]
  congr 1
  funext ψ x
  have hs : Sat {(c, true)} x ↔ x c = true := by simp [Sat]
  simp only [ctl, hs, cphF, app1, Fintype.sum_bool, mat1]
  by_cases hc : x c = true
  · rw [if_pos hc]
    cases hx : x t
    · have : update x t false = x := by rw [← hx, Function.update_eq_self]
      simp [this]
    · have : update x t true = x := by rw [← hx, Function.update_eq_self]
      simp [this, hc]
  · rw [if_neg hc, if_neg (fun h => hc h.1), one_mul]

theorem acts_cz (c t : ℕ) : Acts (cgate .z c t) (cphF c t Real.pi) :=
  acts_cdiag rfl (by rw [cis_pi]; rfl) c t
theorem acts_cs (c t : ℕ) : Acts (cgate .s c t) (cphF c t (Real.pi / 2)) :=
  acts_cdiag rfl (by rw [cis_half]; rfl) c t
theorem acts_ct (c t : ℕ) : Acts (cgate .t c t) (cphF c t (Real.pi / 4)) :=
  acts_cdiag rfl (by rw [cis_quarter]; rfl) c t
theorem acts_cp (l : ℝ) (c t : ℕ) : Acts (cgate .p c t [l]) (cphF c t l) :=
  acts_cdiag rfl (by rw [← cis_eq]; rfl) c t

/-! ### Sequences -/

theorem actsL_map {α : Type} {g : α → Op ℝ} {F : α → State → State} (l : List α)
    (h : ∀ a ∈ l, Acts (g a) (F a)) :
    ActsL (l.map g) (fun ψ => l.foldl (fun ψ a => F a ψ) ψ) := by
  induction l with
  | nil => exact actsL_nil
  | cons a l ih =>
    rw [List.map_cons]
    exact actsL_cons (h a (by simp)) (ih fun b hb => h b (List.mem_cons_of_mem _ hb))

theorem actsL_flatMap {α : Type} {g : α → List (Op ℝ)} {F : α → State → State} (l : List α)
    (h : ∀ a ∈ l, ActsL (g a) (F a)) :
    ActsL (l.flatMap g) (fun ψ => l.foldl (fun ψ a => F a ψ) ψ) := by
  induction l with
  | nil => exact actsL_nil
  | cons a l ih =>
    rw [List.flatMap_cons]
    exact actsL_append (h a (by simp)) (ih fun b hb => h b (List.mem_cons_of_mem _ hb))

end MQT.Alg
