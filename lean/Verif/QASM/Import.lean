/-
Importing an OpenQASM program (`Importer::visitProgram` and the visits of statements, src/qasm3/Importer.cpp 291-486, 837-890;
`QuantumComputation::addQubitRegister`, `addClassicalRegister`, src/ir/QuantumComputation.cpp 334-383), and exporting a circuit
as a text (Verif/QASM/Dump.lean, Verif/QASM/DumpGate.lean, Verif/QASM/Print.lean).

A program is a list of statements of the parser (Verif/QASM/Program.lean), with the standard gates included implicitly in
front.  Every statement is checked (Verif/QASM/TypeCheck.lean) and then visited.  Not modelled, and `none`, are constants and
other initial values, conditions, hardware qubits, `reset` in the body of a gate, sizes, indices and numbers of controls that
are not literals, and versions with an exponent.  Qubits are natural numbers.
-/
import Verif.QASM.Print
import Verif.QASM.TypeCheck
import Verif.Props.Program

set_option autoImplicit false

namespace MQT.QASM.Import

open MQT.IR
open MQT.QASM.GateCall (Arg Mod Call Gate Gates Exprs Vals Printer parseCompat stdGates importOut mapRes dumpOp2 dumpOp3)
open MQT.QASM.Program (E Statement Files parseText)
open MQT.QASM.Print (Line)
open MQT.QASM.Scanner (PMap parsePermutation value isNum)
open MQT.QASM.TypeCheck (Kind)
open Function (update)

/-! ### Statements -/

/-- A statement as the importer sees it. -/
inductive Cmd
  | version (old : Bool)
  | decl (k : Kind) (size : ℕ) (name : String)
  | layout (s : List Char)
  | outputs (s : List Char)
  | gate (name : String) (params qubits : List String) (body : List (GateCall.Stmt E)) (isOpaque : Bool)
  | out (o : GateCall.Out E)
  | measure (tgt src : Operand)
  | reset (q : Operand)

/-- `evaluatePositiveConstant` (Importer.cpp 266-280) of a literal. -/
def literal : E → Option ℕ
  | .atom (.lit (.num (.int v false))) => if 0 ≤ v then some v.toNat else none
  | _ => none

def ofRef (r : Program.Ref) : Option Operand :=
  match r.ix with
  | [] => some (.reg r.name)
  | [[e]] => (literal e).map (.elem r.name)
  | _ => none

def ofOperand : Program.Operand → Option Operand
  | .hw _ => none
  | .ref r => ofRef r

/-- A modifier; without a number there is one control (Importer.cpp 555-558). -/
def ofMod : Program.Modifier → Option Mod
  | .inv => some .inv
  | .pow _ => some .pow
  | .ctrl pos none => some (.ctrl pos 1)
  | .ctrl pos (some e) => (literal e).map (.ctrl pos)

def ofCall (name : String) (ms : List Program.Modifier) (args : List E) (qs : List Program.Operand) : Option (Call E) :=
  (ms.mapM ofMod).bind fun ms => (qs.mapM ofOperand).map fun qs => ⟨name, ms, args, qs.map .op⟩

/-- A statement in the body of a gate. -/
def ofBody : Program.Quantum → Option (GateCall.Stmt E)
  | .call name ms args qs => (ofCall name ms args qs).map .call
  | .barrier qs => (qs.mapM ofOperand).map fun qs => .barrier (qs.map .op)
  | .reset _ => none

def ofQuantum : Program.Quantum → Option Cmd
  | .call name ms args qs => (ofCall name ms args qs).map fun c => .out (.call c)
  | .barrier qs => (qs.mapM ofOperand).map fun qs => .out (.barrier qs)
  | .reset q => (ofOperand q).map .reset

/-- `version < 3` (Importer.cpp 316) for a number without an exponent: the part in front of the point is less than three. -/
def ofVersion (text : List Char) (neg : Bool) : Option Bool :=
  if 'e' ∈ text ∨ 'E' ∈ text then none else some (neg || decide (value 10 (text.takeWhile isNum) < 3))

/-- The size of a register (ConstEvalPass.cpp 595-619). -/
def ofSize (k : Kind) : Option E → Option ℕ
  | none => some k.width
  | some e => literal e

def ofTy : Program.Ty → Option (Kind × Option E)
  | .qubit d => some (.qubit, d)
  | .bit d => some (.bit, d)
  | .int d => some (.int, d)
  | .uint d => some (.uint, d)
  | .float d => some (.float, d)
  | .angle d => some (.angle, d)
  | .bool => none
  | .duration => none

/-- The statement as the importer sees it. -/
def cmd : Statement → Option Cmd
  | .version text neg => (ofVersion text neg).map .version
  | .decl false ty x none => (ofTy ty).bind fun k => (ofSize k.1 k.2).map fun n => .decl k.1 n x
  | .gate name ps qs body isOpaque => (body.mapM ofBody).map fun body => .gate name ps qs body isOpaque
  | .assign _ t (.measure s) => (ofRef t).bind fun t => (ofOperand s).map fun s => .measure t s
  | .quantum q => ofQuantum q
  | .layout s => some (.layout s)
  | .outputs s => some (.outputs s)
  | _ => none

/-- An expression as the type check sees it. -/
def toEx : E → TypeCheck.Ex
  | .atom (.name s) => .name s false
  | .atom (.lit (.num (.int v neg))) => .const (.int neg v)
  | .atom (.lit (.num (.float _ _))) => .const .float
  | .atom (.lit (.bool _)) => .const .bool
  | .un .neg e => .un .neg (toEx e)
  | .un .lnot e => .un .lnot (toEx e)
  | .un .bnot e => .un .bnot (toEx e)
  | .fn _ e => .un .fn (toEx e)
  | .bin .pow a b => .bin .power (toEx a) (toEx b)
  | .bin .mul a b => .bin .mul (toEx a) (toEx b)
  | .bin .div a b => .bin .div (toEx a) (toEx b)
  | .bin .add a b => .bin .add (toEx a) (toEx b)
  | .bin .sub a b => .bin .sub (toEx a) (toEx b)
  | .bin (.cmp .eq) a b => .bin .eq (toEx a) (toEx b)
  | .bin (.cmp .ne) a b => .bin .ne (toEx a) (toEx b)
  | .bin (.cmp .lt) a b => .bin .lt (toEx a) (toEx b)
  | .bin (.cmp .gt) a b => .bin .gt (toEx a) (toEx b)
  | .bin (.cmp .le) a b => .bin .le (toEx a) (toEx b)
  | .bin (.cmp .ge) a b => .bin .ge (toEx a) (toEx b)

/-- An argument of a gate call after the constant evaluation (ConstEvalPass.cpp 77-83); the type of the constant does not matter
to the check. -/
def folded (X : Exprs E) (ρ : Vals) (e : E) : TypeCheck.Ex := if (X.ev ρ e).isSome then .const .float else toEx e

def checkedIx (ix : List (List E)) : List TypeCheck.Ex := ix.flatten.map toEx

def checkedOperand : Program.Operand → TypeCheck.Operand
  | .hw _ => .hw
  | .ref r => .ref r.name (checkedIx r.ix)

def checkedQuantum (f : E → TypeCheck.Ex) : Program.Quantum → TypeCheck.Quantum
  | .call _ _ args _ => .call (args.map f)
  | .barrier qs => .barrier (qs.map checkedOperand)
  | .reset q => .reset (checkedOperand q)

def checkedSize : E → Option TypeCheck.Const
  | .atom (.lit (.num (.int v neg))) => some (.int neg v)
  | _ => none

/-- The statement as the type check sees it.  The body of a gate is not evaluated before. -/
def checked (X : Exprs E) (ρ : Vals) : Statement → Option TypeCheck.Stmt
  | .version _ _ => some .other
  | .decl false ty x none => (ofTy ty).bind fun k =>
    match k.2 with
    | none => some (.decl (.sized k.1 none) x none)
    | some e => (checkedSize e).map fun c => .decl (.sized k.1 (some c)) x none
  | .gate _ ps qs body _ => some (.gate ps qs (body.map (checkedQuantum toEx)))
  | .assign _ t (.measure s) => some (.assign t.name (checkedIx t.ix) (.measure (checkedOperand s)))
  | .quantum q => some (.quantum (checkedQuantum (folded X ρ) q))
  | .layout _ => some .other
  | .outputs _ => some .other
  | _ => none

/-! ### The importer -/

/-- An operation of the circuit. -/
inductive Item
  | gate (o : UOp ℝ)
  | other (o : NOp)

/-- The members of the importer, and of the circuit. -/
structure St where
  compat : Bool
  init : PMap
  outp : PMap
  decls : List (String × Kind)
  gates : Gates E
  qregs : List Reg
  cregs : List Reg
  ops : List Item

def total (l : List Reg) : ℕ := (l.map Reg.size).sum

/-- `addQubitRegister`, `addClassicalRegister` (QuantumComputation.cpp 334-383); there are no ancillary qubits. -/
def addReg (n : ℕ) (x : String) (l : List Reg) : Res (List Reg) :=
  if l.any (fun r => r.name = x) then .throw
  else if n = 0 then .throw
  else .ok (l ++ [⟨total l, n, x⟩])

/-- `visitDeclarationStatement` (Importer.cpp 321-379). -/
def declare (k : Kind) (n : ℕ) (x : String) (s : St) : Res St :=
  if x ∈ s.decls.map Prod.fst then .throw
  else
    let s' := { s with decls := (x, k) :: s.decls }
    match k with
    | .qubit => (addReg n x s.qregs).bind fun l => .ok { s' with qregs := l }
    | .bit | .int | .uint => (addReg n x s.cregs).bind fun l => .ok { s' with cregs := l }
    | .float => .ok s'
    | .angle => .throw

/-- `visitGateStatement` (Importer.cpp 418-475). -/
def defineGate (name : String) (ps qs : List String) (body : List (GateCall.Stmt E)) (isOpaque : Bool) (s : St) : Res St :=
  if isOpaque then (if (s.gates name).isNone then .throw else .ok s)
  else
    let x := if s.compat then (parseCompat s.gates name).1 else name
    match s.gates x with
    | some (.std _ _ _ _) => .ok s
    | some (.compound _ _ _) => .throw
    | none => if ps.Nodup ∧ qs.Nodup then .ok { s with gates := update s.gates x (some (.compound ps qs body)) } else .throw

/-- The identifier of an operand. -/
def base : Operand → String
  | .reg x => x
  | .elem x _ => x

/-- `visitMeasureAssignment` (Importer.cpp 837-872). -/
def measure (t q : Operand) (s : St) : Res St :=
  match s.decls.lookup (base t) with
  | some .bit => (importStmt s.qregs s.cregs (.measure t q)).bind fun o => .ok { s with ops := s.ops ++ [.other o] }
  | _ => .throw

/-- The visit of a statement (Importer.cpp 314-486, 837-890). -/
noncomputable def step (X : Exprs E) (ρ : Vals) (depth : ℕ) (s : St) : Cmd → Res St
  | .version old => .ok { s with compat := s.compat || old }
  | .decl k n x => declare k n x s
  | .layout t => (parsePermutation t).bind fun m => if s.init ≠ [] then .throw else .ok { s with init := m }
  | .outputs t => (parsePermutation t).bind fun m => if s.outp ≠ [] then .throw else .ok { s with outp := m }
  | .gate name ps qs body isOpaque => defineGate name ps qs body isOpaque s
  | .out o => (importOut X s.gates s.compat depth s.qregs ρ o).bind fun u => .ok { s with ops := s.ops ++ [.gate u] }
  | .measure t q => measure t q s
  | .reset q => (importStmt s.qregs s.cregs (.reset q)).bind fun o => .ok { s with ops := s.ops ++ [.other o] }

/-- The loop of `visitProgram` (Importer.cpp 298-302). -/
noncomputable def run (X : Exprs E) (ρ : Vals) (depth : ℕ) : List (TypeCheck.Stmt × Cmd) → TypeCheck.St × St → Res (TypeCheck.St × St)
  | [], s => .ok s
  | c :: l, s => (TypeCheck.process c.1 s.1).bind fun t => (step X ρ depth s.2 c.2).bind fun s' => run X ρ depth l (t, s')

/-- The builtins (Importer.cpp 76-99). -/
noncomputable def builtins : Vals := fun s =>
  if s = "pi" ∨ s = "π" then some Real.pi
  else if s = "tau" ∨ s = "τ" then some (2 * Real.pi)
  else if s = "euler" ∨ s = "ℇ" then some (Real.exp 1)
  else none

/-- The importer at the start (Importer.cpp 282-289). -/
def start : St := ⟨false, [], [], [], stdGates, [], [], []⟩

/-- The circuit that is made. -/
structure Circuit (A : Type) where
  init : PMap
  outp : PMap
  qregs : List Reg
  cregs : List Reg
  ops : List A

/-- The layout of a circuit of `n` qubits (QuantumComputation.cpp 355-359). -/
def identity (n : ℕ) : PMap := (List.range n).map fun i => (i, i)

/-- The end of `visitProgram` (Importer.cpp 304-311). -/
def finish (s : St) : Circuit Item :=
  ⟨if s.init ≠ [] then s.init else identity (total s.qregs), if s.outp ≠ [] then s.outp else identity (total s.qregs), s.qregs, s.cregs, s.ops⟩

/-- `STDGATES` (StdGates.hpp 23-26). -/
def stdText : String :=
  "// four parameter controlled-U gate with relative phase\ngate cu(theta, phi, lambda, gamma) c, t { p(gamma) c; ctrl @ U(theta, phi, lambda) c, t; }\n"

/-- The gate of it. -/
def stdLib : List Statement :=
  [.gate "cu" ["theta", "phi", "lambda", "gamma"] ["c", "t"]
    [.call "p" [] [.atom (.name "gamma")] [.ref ⟨"c", []⟩],
     .call "U" [.ctrl true none] [.atom (.name "theta"), .atom (.name "phi"), .atom (.name "lambda")] [.ref ⟨"c", []⟩, .ref ⟨"t", []⟩]] false]

/-- The program as the importer sees it. -/
noncomputable def commands (X : Exprs E) (ρ : Vals) (l : List Statement) : Option (List (TypeCheck.Stmt × Cmd)) :=
  l.mapM fun s => (checked X ρ s).bind fun t => (cmd s).map fun c => (t, c)

/-- `import` (Importer.cpp 58-69) of statements. -/
noncomputable def importStatements (X : Exprs E) (depth : ℕ) (l : List Statement) : Option (Res (Circuit Item)) :=
  (commands X builtins (stdLib ++ l)).map fun cs => (run X builtins depth cs (TypeCheck.start, start)).bind fun s => .ok (finish s.2)

/-- `import` (Importer.cpp 58-69) of a text; `none` if it is not read, or not modelled. -/
noncomputable def importText (X : Exprs E) (F : Files) (n depth : ℕ) (text : List Char) : Option (Res (Circuit Item)) :=
  (parseText F n text).bind (importStatements X depth)

/-! ### Exporting a circuit -/

/-- An operation exported. -/
inductive COp
  | gate (o : StdOp ℝ)
  | other (o : NOp)

noncomputable def exportOp {X : Exprs E} (P : Printer X) (qasm3 : Bool) (qregs cregs : List Reg) : COp → Res (List Line)
  | .gate o => (if qasm3 then dumpOp3 P qregs o else dumpOp2 P qregs o).bind fun l => .ok (l.map .out)
  | .other o => (dump qregs cregs qasm3 o).bind fun l => .ok (l.map .stmt)

/-- `dumpOpenQASM` (QuantumComputation.cpp 633-702). -/
noncomputable def exportText {X : Exprs E} (P : Printer X) (qasm3 : Bool) (C : Circuit COp) : Res (List Char) :=
  (mapRes (exportOp P qasm3 C.qregs C.cregs) C.ops).bind fun l => .ok (Print.circuit qasm3 C.init C.outp C.qregs C.cregs l.flatten)

end MQT.QASM.Import
