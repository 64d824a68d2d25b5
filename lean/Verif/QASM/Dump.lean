/-
Exporting measurements, resets and barriers to OpenQASM (`NonUnitaryOperation::dumpOpenQASM`,
src/ir/operations/NonUnitaryOperation.cpp 80-125; the targets of a barrier in `StandardOperation::dumpGateOpenQASM2` and
`...3`, src/ir/operations/StandardOperation.cpp 481-494; the maps of QuantumComputation.cpp 679-694) and reading the statements
(`Importer`, src/qasm3/Importer.cpp 101-191, 837-890).

The statements exported are syntax trees: printing and parsing the text are not modelled.  Registers keep their
positions.  `std::map::at` on a missing key throws.
-/
import Verif.Common.Res
import Mathlib.Data.List.Basic
import Mathlib.Data.List.Range

set_option autoImplicit false

namespace MQT.QASM

/-! ### Model -/

/-- `Register` (Register.hpp 24-82). -/
structure Reg where
  start : ℕ
  size : ℕ
  name : String
  deriving DecidableEq

/-- Register.hpp 47-49. -/
def Reg.contains (r : Reg) (i : ℕ) : Bool := decide (r.start ≤ i ∧ i < r.start + r.size)

/-- `operator==` (Register.hpp 40-42): the start is not compared. -/
def Reg.same (r r' : Reg) : Bool := r.name == r'.name && r.size == r'.size

/-- `getEndIndex` (Register.hpp 36-38). -/
def Reg.last (r : Reg) : ℕ := r.start + r.size - 1

/-- `qubitMap.at(i).first` and `bitMap.at(i).first`: the register with the index (QuantumComputation.cpp 679-694). -/
def regAt (regs : List Reg) (i : ℕ) : Res Reg :=
  match regs.find? (·.contains i) with
  | some r => .ok r
  | none => .throw

/-- An operand: a register or one of its elements. -/
inductive Operand
  | reg (name : String)
  | elem (name : String) (i : ℕ)
  deriving DecidableEq

/-- `qubitMap.at(i).second` (Register.hpp 65-67). -/
def elemAt (regs : List Reg) (i : ℕ) : Res Operand := (regAt regs i).bind fun r => .ok (.elem r.name (i - r.start))

/-- `isWholeQubitRegister` (Operation.hpp 39-46), `isWholeClassicalRegister` (NonUnitaryOperation.cpp 80-87). -/
def isWhole (regs : List Reg) (first last : ℕ) : Res Bool :=
  (regAt regs first).bind fun r => (regAt regs last).bind fun r' =>
    .ok (r.same r' && r.start == first && r'.last == last)

inductive Stmt
  | measure (tgt src : Operand)
  | reset (q : Operand)
  | barrier (qs : List Operand)
  deriving DecidableEq

/-- A measurement (with a bit for each target), a reset or a barrier. -/
inductive NOp
  | measure (targets bits : List ℕ)
  | reset (targets : List ℕ)
  | barrier (targets : List ℕ)
  deriving DecidableEq

/-- The loop over the targets of a measurement (NonUnitaryOperation.cpp 110-124), with the bits from `classicsIt` on.
The iterator only moves in OpenQASM 2. -/
def dumpMeasures (qregs cregs : List Reg) (qasm3 : Bool) : List ℕ → List ℕ → Res (List Stmt)
  | [], _ => .ok []
  | _ :: _, [] => .ub
  | q :: ts, b :: bs =>
    (elemAt qregs q).bind fun sq => (elemAt cregs b).bind fun sb =>
      (dumpMeasures qregs cregs qasm3 ts (if qasm3 then b :: bs else bs)).bind fun r => .ok (.measure sb sq :: r)

def dumpResets (qregs : List Reg) : List ℕ → Res (List Stmt)
  | [] => .ok []
  | q :: ts => (elemAt qregs q).bind fun sq => (dumpResets qregs ts).bind fun r => .ok (.reset sq :: r)

def dumpOperands (qregs : List Reg) : List ℕ → Res (List Operand)
  | [] => .ok []
  | q :: ts => (elemAt qregs q).bind fun sq => (dumpOperands qregs ts).bind fun r => .ok (sq :: r)

/-- `dumpOpenQASM` of the three operations. -/
def dump (qregs cregs : List Reg) (qasm3 : Bool) : NOp → Res (List Stmt)
  | .measure ts bs =>
    match ts.head?, ts.getLast?, bs.head?, bs.getLast? with
    | some q, some q', some b, some b' =>
      (isWhole qregs q q').bind fun w =>
        if w then
          (isWhole cregs b b').bind fun w' =>
            if w' then
              (regAt cregs b).bind fun rb => (regAt qregs q).bind fun rq => .ok [.measure (.reg rb.name) (.reg rq.name)]
            else dumpMeasures qregs cregs qasm3 ts bs
        else dumpMeasures qregs cregs qasm3 ts bs
    | _, _, _, _ => .ub
  | .reset ts =>
    match ts.head?, ts.getLast? with
    | some q, some q' =>
      (isWhole qregs q q').bind fun w =>
        if w then (regAt qregs q).bind fun rq => .ok [.reset (.reg rq.name)] else dumpResets qregs ts
    | _, _ => .ub
  | .barrier ts =>
    match ts.head?, ts.getLast? with
    | some q, some q' =>
      (isWhole qregs q q').bind fun w =>
        if w then (regAt qregs q).bind fun rq => .ok [.barrier [.reg rq.name]]
        else (dumpOperands qregs ts).bind fun l => .ok [.barrier l]
    | _, _ => .ok [.barrier []]

/-- `translateGateOperand`, `translateBitOperand` (Importer.cpp 101-191). -/
def translate (regs : List Reg) : Operand → Res (List ℕ)
  | .reg name =>
    match regs.find? (·.name = name) with
    | some r => .ok (List.range' r.start r.size)
    | none => .throw
  | .elem name i =>
    match regs.find? (·.name = name) with
    | some r => if r.size ≤ i then .throw else .ok [r.start + i]
    | none => .throw

def translateAll (regs : List Reg) : List Operand → Res (List ℕ)
  | [] => .ok []
  | o :: l => (translate regs o).bind fun a => (translateAll regs l).bind fun b => .ok (a ++ b)

/-- `visitMeasureAssignment`, `visitResetStatement`, `visitBarrierStatement` (Importer.cpp 837-890). -/
def importStmt (qregs cregs : List Reg) : Stmt → Res NOp
  | .measure tgt src =>
    (translate qregs src).bind fun qs => (translate cregs tgt).bind fun bs =>
      if qs.length ≠ bs.length then .throw else .ok (.measure qs bs)
  | .reset q => (translate qregs q).bind fun qs => .ok (.reset qs)
  | .barrier l => (translateAll qregs l).bind fun qs => .ok (.barrier qs)

def importAll (qregs cregs : List Reg) : List Stmt → Res (List NOp)
  | [] => .ok []
  | s :: l => (importStmt qregs cregs s).bind fun o => (importAll qregs cregs l).bind fun r => .ok (o :: r)

/-! ### Specification -/

/-- What happens: a qubit is measured into a bit, a qubit is reset, qubits are fenced. -/
inductive Event
  | measure (q b : ℕ)
  | reset (q : ℕ)
  | barrier (qs : List ℕ)
  deriving DecidableEq

def NOp.events : NOp → List Event
  | .measure ts bs => (ts.zip bs).map fun p => .measure p.1 p.2
  | .reset ts => ts.map .reset
  | .barrier ts => [.barrier ts]

/-- Registers that do not overlap and have different names. -/
def WF (regs : List Reg) : Prop :=
  regs.Pairwise fun r r' => r.name ≠ r'.name ∧ ∀ i, ¬ (r.contains i = true ∧ r'.contains i = true)

/-- Every index belongs to a register. -/
def Covered (regs : List Reg) (l : List ℕ) : Prop := ∀ i ∈ l, ∃ r ∈ regs, r.contains i = true

/-- If the list starts and ends like a register, it lists the register in order. -/
def Faithful (regs : List Reg) (l : List ℕ) : Prop :=
  ∀ r ∈ regs, 0 < r.size → l.head? = some r.start → l.getLast? = some r.last → l = List.range' r.start r.size

/-! ### Lemmas -/

theorem find_contains {regs : List Reg} (h : WF regs) {r : Reg} (hr : r ∈ regs) {i : ℕ} (hi : r.contains i = true) :
    regs.find? (·.contains i) = some r := by
  induction regs with
  | nil => cases hr
  | cons a l ih =>
    rw [WF, List.pairwise_cons] at h
    rw [List.find?_cons]
    rcases List.mem_cons.1 hr with rfl | hm
    · rw [hi]
    · have : a.contains i = false := by
        by_contra hc
        exact (h.1 r hm).2 i ⟨by simpa using hc, hi⟩
      rw [this]
      exact ih h.2 hm

theorem find_name {regs : List Reg} (h : WF regs) {r : Reg} (hr : r ∈ regs) :
    regs.find? (·.name = r.name) = some r := by
  induction regs with
  | nil => cases hr
  | cons a l ih =>
    rw [WF, List.pairwise_cons] at h
    rw [List.find?_cons]
    rcases List.mem_cons.1 hr with rfl | hm
    · simp
    · simp only [(h.1 r hm).1, decide_false]
      exact ih h.2 hm

theorem regAt_eq {regs : List Reg} (h : WF regs) {r : Reg} (hr : r ∈ regs) {i : ℕ} (hi : r.contains i = true) :
    regAt regs i = .ok r := by
  unfold regAt
  rw [find_contains h hr hi]

theorem contains_iff {r : Reg} {i : ℕ} : r.contains i = true ↔ r.start ≤ i ∧ i < r.start + r.size := by
  simp [Reg.contains]

/-- An element is exported and read back. -/
theorem elemAt_translate {regs : List Reg} (h : WF regs) {i : ℕ} (hi : ∃ r ∈ regs, r.contains i = true) :
    ∃ o, elemAt regs i = .ok o ∧ translate regs o = .ok [i] := by
  obtain ⟨r, hr, hi⟩ := hi
  refine ⟨.elem r.name (i - r.start), ?_, ?_⟩
  · simp only [elemAt, regAt_eq h hr hi, Res.bind]
  · rw [contains_iff] at hi
    simp only [translate, find_name h hr]
    rw [if_neg (by omega)]
    congr 2
    omega

/-- When the check for a whole register succeeds. -/
theorem isWhole_spec {regs : List Reg} (h : WF regs) {r r' : Reg} (hr : r ∈ regs) (hr' : r' ∈ regs) {i j : ℕ} (hi : r.contains i = true)
    (hj : r'.contains j = true) :
    isWhole regs i j = .ok (decide (r = r' ∧ i = r.start ∧ j = r.last)) := by
  simp only [isWhole, regAt_eq h hr hi, regAt_eq h hr' hj, Res.bind, Res.ok.injEq]
  rw [Bool.eq_iff_iff]
  simp only [Reg.same, Bool.and_eq_true, beq_iff_eq, decide_eq_true_eq]
  constructor
  · rintro ⟨⟨⟨hn, -⟩, h1⟩, h2⟩
    have : r = r' := by
      have e1 := find_name h hr
      rw [show (fun x : Reg => decide (x.name = r.name)) = fun x => decide (x.name = r'.name) by rw [hn], find_name h hr'] at e1
      exact (Option.some.inj e1).symm
    subst this
    exact ⟨rfl, h1.symm, h2.symm⟩
  · rintro ⟨rfl, rfl, rfl⟩
    simp

theorem translate_reg {regs : List Reg} (h : WF regs) {r : Reg} (hr : r ∈ regs) :
    translate regs (.reg r.name) = .ok (List.range' r.start r.size) := by
  simp only [translate, find_name h hr]

theorem dumpMeasures_roundtrip {qregs cregs : List Reg} (hq : WF qregs) (hc : WF cregs) : ∀ (ts bs : List ℕ), ts.length = bs.length →
    Covered qregs ts → Covered cregs bs → ∃ l o, dumpMeasures qregs cregs false ts bs = .ok l ∧ importAll qregs cregs l = .ok o ∧
      o.flatMap NOp.events = (NOp.measure ts bs).events := by
  intro ts
  induction ts with
  | nil => intro bs _ _ _; exact ⟨[], [], rfl, rfl, by simp [NOp.events]⟩
  | cons q ts ih =>
    intro bs hl ht hb
    cases bs with
    | nil => simp at hl
    | cons b bs =>
      obtain ⟨sq, e1, t1⟩ := elemAt_translate hq (ht q (by simp))
      obtain ⟨sb, e2, t2⟩ := elemAt_translate hc (hb b (by simp))
      obtain ⟨l, o, e3, e4, e5⟩ := ih bs (by simpa using hl) (fun i hi => ht i (by simp [hi])) (fun i hi => hb i (by simp [hi]))
      refine ⟨.measure sb sq :: l, .measure [q] [b] :: o, ?_, ?_, ?_⟩
      · simp only [dumpMeasures, e1, e2, Res.bind, Bool.false_eq_true, if_false, e3]
      · simp [importAll, importStmt, t1, t2, Res.bind, e4]
      · simpa [NOp.events] using e5

theorem dumpResets_roundtrip {qregs : List Reg} (hq : WF qregs) (cregs : List Reg) : ∀ (ts : List ℕ), Covered qregs ts →
    ∃ l o, dumpResets qregs ts = .ok l ∧ importAll qregs cregs l = .ok o ∧ o.flatMap NOp.events = (NOp.reset ts).events := by
  intro ts
  induction ts with
  | nil => intro _; exact ⟨[], [], rfl, rfl, by simp [NOp.events]⟩
  | cons q ts ih =>
    intro ht
    obtain ⟨sq, e1, t1⟩ := elemAt_translate hq (ht q (by simp))
    obtain ⟨l, o, e3, e4, e5⟩ := ih (fun i hi => ht i (by simp [hi]))
    refine ⟨.reset sq :: l, .reset [q] :: o, ?_, ?_, ?_⟩
    · simp only [dumpResets, e1, Res.bind, e3]
    · simp only [importAll, importStmt, t1, Res.bind, e4]
    · simpa [NOp.events] using e5

theorem dumpOperands_roundtrip {qregs : List Reg} (hq : WF qregs) : ∀ (ts : List ℕ), Covered qregs ts →
    ∃ l, dumpOperands qregs ts = .ok l ∧ translateAll qregs l = .ok ts := by
  intro ts
  induction ts with
  | nil => intro _; exact ⟨[], rfl, rfl⟩
  | cons q ts ih =>
    intro ht
    obtain ⟨sq, e1, t1⟩ := elemAt_translate hq (ht q (by simp))
    obtain ⟨l, e3, e4⟩ := ih (fun i hi => ht i (by simp [hi]))
    refine ⟨sq :: l, ?_, ?_⟩
    · simp only [dumpOperands, e1, Res.bind, e3]
    · simp only [translateAll, t1, Res.bind, e4, List.singleton_append]

/-- In OpenQASM 3 a single measurement is exported as in OpenQASM 2. -/
theorem dumpMeasures_one (qregs cregs : List Reg) (q b : ℕ) :
    dumpMeasures qregs cregs true [q] [b] = dumpMeasures qregs cregs false [q] [b] := rfl

/-- The shape of a non-empty list. -/
theorem ends {l : List ℕ} (h : l ≠ []) : ∃ i j, l.head? = some i ∧ l.getLast? = some j ∧ i ∈ l ∧ j ∈ l := by
  obtain ⟨j, hj⟩ := Option.ne_none_iff_exists'.1 (fun h' => h (List.getLast?_eq_none_iff.1 h'))
  cases l with
  | nil => exact absurd rfl h
  | cons i l => exact ⟨i, j, rfl, hj, by simp, List.mem_of_getLast? hj⟩

end MQT.QASM
