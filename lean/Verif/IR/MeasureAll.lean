/-
Measuring all outputs of a circuit.

Models `addClassicalRegister`, `appendMeasurementsAccordingToOutputPermutation`, `checkQubitRange`, `checkBitRange`, `measure` of one qubit,
`measureAll` and `barrier` (`src/ir/QuantumComputation.cpp` 366-383, 940-959, 961-967, 989-995, 1530-1534, 1543-1566, 1576-1580).

A function returns the circuit and whether it returned; if not, it threw an exception and the circuit is what is left.  The initial layout
is a partial function; the output permutation, a `std::map`, is the list of its entries in their order.  Numbers are without bounds.
-/
import Mathlib.Data.List.Basic
import Mathlib.Tactic.Linarith

set_option autoImplicit false

namespace MQT.IR.MeasureAll

/-! ### Model -/

inductive Op
  | other (k : ℕ)
  | barrier (qs : List ℕ)
  | measure (q b : ℕ)
deriving DecidableEq

/-- The number of qubits, the initial layout, the output permutation, the number of classical bits, the classical registers (name, start
and size) and the operations. -/
structure QC where
  n : ℕ
  layout : ℕ → Option ℕ
  out : List (ℕ × ℕ)
  nc : ℕ
  regs : List (String × ℕ × ℕ)
  ops : List Op

/-- What follows happens only if no exception was thrown. -/
def next (r : QC × Bool) (f : QC → QC × Bool) : QC × Bool := if r.2 then f r.1 else r

def QC.hasReg (c : QC) (nm : String) : Bool := c.regs.any (fun r => r.1 = nm)

/-- `addClassicalRegister` (QuantumComputation.cpp 366-383). -/
def addReg (c : QC) (k : ℕ) (nm : String) : QC × Bool :=
  if c.hasReg nm then (c, false)
  else if k = 0 then (c, false)
  else ({ c with regs := c.regs ++ [(nm, c.nc, k)], nc := c.nc + k }, true)

/-- `checkQubitRange` (QuantumComputation.cpp 961-967). -/
def QC.qubitOk (c : QC) (q : ℕ) : Bool := match c.layout q with
  | none => false
  | some l => decide (l < c.n)

/-- `measure` (QuantumComputation.cpp 1530-1534), `checkBitRange` (QuantumComputation.cpp 989-995). -/
def measure (c : QC) (q b : ℕ) : QC × Bool :=
  if c.qubitOk q = false then (c, false)
  else if c.nc ≤ b then (c, false)
  else ({ c with ops := c.ops ++ [.measure q b] }, true)

/-- `barrier` (QuantumComputation.cpp 1576-1580). -/
def barrier (c : QC) : QC := { c with ops := c.ops ++ [.barrier (List.range c.n)] }

/-- A loop of measurements. -/
def measures (c : QC) : List (ℕ × ℕ) → QC × Bool
  | [] => (c, true)
  | (q, b) :: l => next (measure c q b) fun c => measures c l

/-- `appendMeasurementsAccordingToOutputPermutation` (QuantumComputation.cpp 940-959). -/
def append (c : QC) (nm : String) : QC × Bool :=
  let r :=
    if c.regs = [] then addReg c c.out.length nm
    else if c.nc < c.out.length then
      if c.hasReg nm then (c, false) else addReg c (c.out.length - c.nc) nm
    else (c, true)
  next r fun c => let c := barrier c; measures c c.out

/-- The start of a register, 0 if there is none (`classicalRegisters.at` throws then). -/
def QC.start (c : QC) (nm : String) : ℕ := ((c.regs.find? (fun r => r.1 = nm)).map (fun r => r.2.1)).getD 0

/-- `measureAll` (QuantumComputation.cpp 1543-1566). -/
def measureAll (c : QC) (addBits : Bool) : QC × Bool :=
  next (if addBits then addReg c c.n "meas" else (c, true)) fun c =>
    if c.nc < c.n then (c, false)
    else
      let c := barrier c
      let start := if addBits then c.start "meas" else 0
      measures c ((List.range c.n).reverse.map fun q => (q, start + q))

/-! ### Specification -/

/-- No classical registers, no classical bits. -/
def Good (c : QC) : Prop := c.regs = [] → c.nc = 0

/-! ### Lemmas -/

/-- The circuit after a loop of measurements: those before the first that throws. -/
theorem measures_spec : ∀ (l : List (ℕ × ℕ)) (c : QC),
    (∀ x ∈ l, c.qubitOk x.1 = true ∧ x.2 < c.nc) ∧ measures c l = ({ c with ops := c.ops ++ l.map fun x => .measure x.1 x.2 }, true) ∨
    ∃ l1 x l2, l = l1 ++ x :: l2 ∧ (∀ y ∈ l1, c.qubitOk y.1 = true ∧ y.2 < c.nc) ∧ ¬ (c.qubitOk x.1 = true ∧ x.2 < c.nc) ∧
      measures c l = ({ c with ops := c.ops ++ l1.map fun x => .measure x.1 x.2 }, false)
  | [], c => Or.inl ⟨by simp, by simp [measures]⟩
  | (q, b) :: l, c => by
    by_cases h : c.qubitOk q = true ∧ b < c.nc
    · have e : measures c ((q, b) :: l) = measures { c with ops := c.ops ++ [.measure q b] } l := by
        rw [measures]
        unfold measure
        rw [if_neg (by simp [h.1]), if_neg (by omega)]
        rfl
      rcases measures_spec l { c with ops := c.ops ++ [.measure q b] } with ⟨h1, h2⟩ | ⟨l1, x, l2, h1, h2, h3, h4⟩
      · refine Or.inl ⟨?_, ?_⟩
        · intro x hx
          rcases List.mem_cons.1 hx with rfl | hx
          · exact h
          · exact h1 x hx
        · rw [e, h2]
          simp
      · refine Or.inr ⟨(q, b) :: l1, x, l2, by rw [h1]; rfl, ?_, h3, ?_⟩
        · intro y hy
          rcases List.mem_cons.1 hy with rfl | hy
          · exact h
          · exact h2 y hy
        · rw [e, h4]
          simp
    · refine Or.inr ⟨[], (q, b), l, rfl, by simp, h, ?_⟩
      rw [measures]
      unfold measure
      by_cases h1 : c.qubitOk q = true
      · rw [if_neg (by simp [h1]), if_pos (by by_contra h2; exact h ⟨h1, by omega⟩)]
        simp [next]
      · rw [if_pos (by simpa using h1)]
        simp [next]

theorem measures_iff (l : List (ℕ × ℕ)) (c : QC) : ((measures c l).2 = true ↔ ∀ x ∈ l, c.qubitOk x.1 = true ∧ x.2 < c.nc) := by
  rcases measures_spec l c with ⟨h1, h2⟩ | ⟨l1, x, l2, h1, h2, h3, h4⟩
  · rw [h2]
    exact ⟨fun _ => h1, fun _ => rfl⟩
  · rw [h4]
    refine ⟨fun h => absurd h (by simp), fun h => absurd (h x (by rw [h1]; simp)) h3⟩

theorem measures_ok {l : List (ℕ × ℕ)} {c : QC} (h : (measures c l).2 = true) :
    (measures c l).1 = { c with ops := c.ops ++ l.map fun x => .measure x.1 x.2 } := by
  rcases measures_spec l c with ⟨-, h2⟩ | ⟨l1, x, l2, -, -, -, h4⟩
  · rw [h2]
  · rw [h4] at h
    exact absurd h (by simp)

end MQT.IR.MeasureAll
