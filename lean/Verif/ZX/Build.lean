/-
Construction of ZX diagrams from circuits (`src/zx/FunctionalityConstruction.cpp`, `ZXDiagram.cpp` 28-31, 304-330).

Every function of the code that appends to the diagram is an action on the pair of the diagram and the vector
`qubits` of the last vertices of the wires.  The calls it makes one after the other are listed with `seq`.

Simplifications: doubles are reals; columns are left out; `qc::Qubit` and `zx::Qubit` are natural numbers.
A parameter of an operation is a number or a symbolic expression (`SymbolOrNumber`); the parameter vector of a
symbolic operation holds 0 in place of the latter (SymbolicOperation.cpp 41-48, 238).
-/
import Verif.ZX.Step
import Verif.Common.Res
import Verif.Opt.Op
import Verif.IR.Layout
import Mathlib.Data.Multiset.Sort

set_option autoImplicit false

noncomputable section

open Classical

open Function (update)

namespace MQT.ZX

open MQT.IR MQT.Opt Diagram MQT.IR.Layout

/-- `SymbolOrNumber`. -/
inductive Param
  | num (x : ℝ)
  | symb (terms : ℕ →₀ ℝ) (const : ℝ)

namespace Param

/-- `PiExpression{PiRational{x}}`. -/
def conv (terms : ℕ →₀ ℝ) (x : ℝ) : Res Phase := (PiRational.ofReal x).bind fun c => .ok ⟨terms, c⟩

/-- `toPiExpr` (FunctionalityConstruction.cpp 710-723). -/
def parse : Param → Res Phase
  | num x => conv 0 x
  | symb t c => conv t c

/-- The entry of `getParameter()`. -/
def stored : Param → ℝ
  | num x => x
  | symb _ _ => 0

end Param

/-- `phase / 2` (Expression.hpp 526-554): the constant is converted to a double and back. -/
def Phase.half (a : Phase) : Res Phase := Param.conv ((1 / 2 : ℝ) • a.sym) (a.const.frac * Real.pi / 2)

/-- The diagram under construction, and `qubits`. -/
structure Build where
  D : Diagram
  qs : List ℕ

/-- What the functions do to the diagram and `qubits`. -/
abbrev Action := Build → Res Build

namespace Build

/-- Undefined behaviour of a diagram. -/
def lift {α : Type} : Option α → Res α
  | some a => .ok a
  | none => .ub

/-- `m.at(k)`: throws if there is no entry. -/
def at' {α : Type} : Option α → Res α
  | some a => .ok a
  | none => .throw

/-- One after the other. -/
def seq : List Action → Action
  | [], b => .ok b
  | f :: r, b => (f b).bind (seq r)

/-- `addZSpider`, `addXSpider` (51-79), which differ in the type of the vertex. -/
def spider (c : VType) (q : ℕ) (φ : Phase) (t : EType) : Action := fun b =>
  (lift b.qs[q]?).bind fun v =>
  if v < b.D.size then
    match b.D.vert v with
    | none => .ok b
    | some _ =>
      let (D1, w) := b.D.addVertex ⟨q, φ, c⟩
      (lift (D1.addEdge v w t)).bind fun D2 => .ok ⟨D2, b.qs.set q w⟩
  else .ub

def zSpider (q : ℕ) (φ : Phase := Phase.zero) (t : EType := .simple) : Action := spider .z q φ t
def xSpider (q : ℕ) (φ : Phase := Phase.zero) (t : EType := .simple) : Action := spider .x q φ t

/-- `diag.addEdge(qubits[q0], qubits[q1], t)`. -/
def link (q0 q1 : ℕ) (t : EType) : Action := fun b =>
  (lift b.qs[q0]?).bind fun v => (lift b.qs[q1]?).bind fun w =>
  (lift (b.D.addEdge v w t)).bind fun D => .ok ⟨D, b.qs⟩

/-- `addGlobalPhase` (ZXDiagram.cpp 290-292). -/
def gphase (φ : Phase) : Action := fun b => .ok ⟨{ b.D with globalPhase := b.D.globalPhase.add φ }, b.qs⟩

/-- The global phase of a rotation, from the parameter itself if it is a number (85-90 and other places). -/
def rotPhase (φ : Phase) : Option ℝ → Res Phase
  | some x => Param.conv 0 (-x / 2)
  | none => φ.half.bind fun h => .ok h.neg

def rot (φ : Phase) (un : Option ℝ) : Action := fun b => (rotPhase φ un).bind fun p => gphase p b

/-- `addRz` (81-92). -/
def rz (φ : Phase) (q : ℕ) (un : Option ℝ := none) : Action := seq [rot φ un, zSpider q φ]

/-- `addRx` (94-99). -/
def rx (φ : Phase) (q : ℕ) : Action := xSpider q φ

/-- `addRy` (101-115). -/
def ry (φ : Phase) (q : ℕ) (un : Option ℝ := none) : Action :=
  seq [rot φ un, xSpider q (.ofRat (1 / 2)), zSpider q (φ.add (.ofRat 1)), xSpider q (.ofRat (1 / 2)), zSpider q (.ofRat 1)]

/-- `addCnot` (117-125); all calls leave the type of the edge at its default. -/
def cnot (c t : ℕ) : Action := seq [zSpider c, xSpider t, link c t .simple]

/-- `addCphase` (127-140). -/
def cphase (φ : Phase) (c t : ℕ) : Action := fun b =>
  φ.half.bind fun h => (φ.const.divInt 2).bind fun k =>
  let p : Phase := ⟨h.sym, k⟩
  seq [zSpider c p, cnot c t, zSpider t p.neg, cnot c t, zSpider t p] b

/-- The two vertices of a phase gadget (149-154, 171-176, 193-199): types `m` and `l`, the edge to the second qubit of
type `t`. -/
def gadget (m l : VType) (t : EType) (φ : Phase) (q0 q1 : ℕ) : Action := fun b =>
  let (D1, vm) := b.D.addVertex ⟨-1, .ofRat 0, m⟩
  let (D2, vl) := D1.addVertex ⟨-1, φ, l⟩
  (lift b.qs[q0]?).bind fun v => (lift b.qs[q1]?).bind fun w =>
  (lift (D2.addEdge v vm .simple)).bind fun D3 => (lift (D3.addEdge w vm t)).bind fun D4 =>
  (lift (D4.addEdge vm vl .simple)).bind fun D5 => .ok ⟨D5, b.qs⟩

/-- `addRzz` (142-162). -/
def rzz (φ : Phase) (q0 q1 : ℕ) (un : Option ℝ := none) : Action :=
  seq [zSpider q0, zSpider q1, gadget .x .z .simple φ q0 q1, rot φ un]

/-- `addRxx` (164-184). -/
def rxx (φ : Phase) (q0 q1 : ℕ) (un : Option ℝ := none) : Action :=
  seq [xSpider q0, xSpider q1, gadget .z .x .simple φ q0 q1, rot φ un]

/-- `addRzx` (186-207). -/
def rzx (φ : Phase) (q0 q1 : ℕ) (un : Option ℝ := none) : Action :=
  seq [zSpider q0, xSpider q1, gadget .x .z .hadamard φ q0 q1, rot φ un]

/-- `addDcx` (209-214). -/
def dcx (q0 q1 : ℕ) : Action := seq [cnot q0 q1, cnot q1 q0]

/-- `addXXplusYY` (216-239). -/
def xxPlusYY (θ β : Phase) (q0 q1 : ℕ) (un : Option ℝ := none) : Action := fun b =>
  θ.half.bind fun h =>
  seq [rz β q1 un, rz (.ofRat (1 / 2)) q1, rz (.ofRat (-1 / 2)) q0, rx (.ofRat (1 / 2)) q0, rz (.ofRat (1 / 2)) q0,
    cnot q0 q1, ry h q0, ry h q1, cnot q0 q1,
    rz (.ofRat (-1 / 2)) q0, rx (.ofRat (-1 / 2)) q0, rz (.ofRat (1 / 2)) q0,
    rz β.neg q1 (un.map fun x => -x), rz (Phase.ofRat (1 / 2)).neg q1] b

/-- `addXXminusYY` (241-263). -/
def xxMinusYY (θ β : Phase) (q0 q1 : ℕ) (un : Option ℝ := none) : Action := fun b =>
  θ.neg.half.bind fun h' => θ.half.bind fun h =>
  seq [rz β.neg q1 (un.map fun x => -x), rz (.ofRat (1 / 2)) q1, rz (.ofRat (-1 / 2)) q0, rx (.ofRat (1 / 2)) q0,
    rz (.ofRat (1 / 2)) q0,
    cnot q0 q1, ry h' q0, ry h q1, cnot q0 q1,
    rz (.ofRat (-1 / 2)) q0, rx (.ofRat (-1 / 2)) q0, rz (.ofRat (1 / 2)) q0,
    rz β q1 un, rz (Phase.ofRat (1 / 2)).neg q1] b

/-- `addSwap` (265-286). -/
def swap (q0 q1 : ℕ) : Action := fun b =>
  (lift b.qs[q1]?).bind fun s0 => (lift b.qs[q0]?).bind fun s1 =>
  if s0 < b.D.size then
    match b.D.vert s0 with
    | none => .ok b
    | some _ =>
      let (D1, t0) := b.D.addVertex ⟨q1, Phase.zero, .z⟩
      let (D2, t1) := D1.addVertex ⟨q0, Phase.zero, .z⟩
      (lift (D2.addEdge s0 t1 .simple)).bind fun D3 => (lift (D3.addEdge s1 t0 .simple)).bind fun D4 =>
      .ok ⟨D4, (b.qs.set q1 t0).set q0 t1⟩
  else .ub

/-- `addCcx` (288-307). -/
def ccx (c0 c1 t : ℕ) : Action :=
  seq [zSpider t .zero .hadamard, cnot c1 t, zSpider t (.ofRat (-1 / 4)), cnot c0 t, zSpider t (.ofRat (1 / 4)),
    cnot c1 t, zSpider c1 (.ofRat (1 / 4)), zSpider t (.ofRat (-1 / 4)), cnot c0 t, zSpider t (.ofRat (1 / 4)),
    cnot c0 c1, zSpider c0 (.ofRat (1 / 4)), zSpider c1 (.ofRat (-1 / 4)), zSpider t (.ofRat 0) .hadamard, cnot c0 c1]

/-! ### Operations -/

/-- `parseParam(op, i)`. -/
def param (ps : List Param) (i : ℕ) : Res Phase := (at' ps[i]?).bind Param.parse

/-- A step with a phase given by a parameter. -/
def withPhase (ps : List Param) (i : ℕ) (f : Phase → Action) : Action := fun b => (param ps i).bind fun φ => f φ b

/-- The qubits of `getControls()` in the order of the set. -/
def ctrlList {P : Type} (o : StdOp P) : List ℕ := (o.controls.val.map Prod.fst).sort (· ≤ ·)

/-- A gate with one parameter whose value also gives a global phase: `phase.isConstant()` decides whether
`getParameter().at(0)` is passed on (331-339 and other places). -/
def withParam (ps : List Param) (f : Phase → Option ℝ → Action) : Action :=
  withPhase ps 0 fun φ b => if φ.isConstant then (at' ps[0]?).bind fun x => f φ (some x.stored) b else f φ none b

/-- Uncontrolled gates (319-505); `q1` is `p.at(op->getTargets()[1])`. -/
def plain (ty : OpType) (ps : List Param) (q : ℕ) (q1 : Res ℕ) : Action := fun b =>
  match ty with
  | .gphase => withPhase ps 0 gphase b
  | .z => zSpider q (.ofRat 1) .simple b
  | .rz => withParam ps (fun φ un => rz φ q un) b
  | .p => withPhase ps 0 (fun φ => zSpider q φ) b
  | .x => xSpider q (.ofRat 1) .simple b
  | .rx => withPhase ps 0 (fun φ => rx φ q) b
  | .y => seq [gphase (Phase.ofRat (1 / 2)).neg, zSpider q (.ofRat 1), xSpider q (.ofRat 1)] b
  | .ry => withParam ps (fun φ un => ry φ q un) b
  | .t => zSpider q (.ofRat (1 / 4)) .simple b
  | .tdg => zSpider q (.ofRat (-1 / 4)) .simple b
  | .s => zSpider q (.ofRat (1 / 2)) .simple b
  | .sdg => zSpider q (.ofRat (-1 / 2)) .simple b
  | .u2 =>
    seq [withPhase ps 1 fun l => zSpider q (l.add (Phase.ofRat (1 / 2)).neg), xSpider q (.ofRat (1 / 2)),
      withPhase ps 0 fun f => zSpider q (f.add (.ofRat (1 / 2)))] b
  | .u =>
    seq [withPhase ps 2 fun l => zSpider q l, xSpider q (.ofRat (1 / 2)), withPhase ps 0 fun θ => zSpider q (θ.add (.ofRat 1)),
      xSpider q (.ofRat (1 / 2)), withPhase ps 1 fun f => zSpider q (f.add (.ofRat 3))] b
  | .swap => q1.bind fun q1 => swap q q1 b
  | .iswap => q1.bind fun q1 =>
    seq [zSpider q (.ofRat (1 / 2)), zSpider q1 (.ofRat (1 / 2)), zSpider q .zero .hadamard, cnot q q1, cnot q1 q,
      zSpider q1 .zero .hadamard] b
  | .rzz => q1.bind fun q1 => withParam ps (fun φ un => rzz φ q q1 un) b
  | .rxx => q1.bind fun q1 => withParam ps (fun φ un => rxx φ q q1 un) b
  | .rzx => q1.bind fun q1 => withParam ps (fun φ un => rzx φ q q1 un) b
  | .ryy => q1.bind fun q1 => withParam ps (fun φ un =>
    seq [xSpider q (.ofRat (1 / 2)), xSpider q1 (.ofRat (1 / 2)), rzz φ q q1 un, xSpider q1 (Phase.ofRat (1 / 2)).neg,
      xSpider q (Phase.ofRat (1 / 2)).neg]) b
  | .dcx => q1.bind fun q1 => dcx q q1 b
  | .ecr => q1.bind fun q1 => seq [rzx (.ofRat (1 / 4)) q q1, xSpider q, rzx (Phase.ofRat (1 / 4)).neg q q1] b
  | .xxplusyy => q1.bind fun q1 => withParam ps (fun θ un => withPhase ps 1 fun β => xxPlusYY θ β q q1 un) b
  | .xxminusyy => q1.bind fun q1 => withParam ps (fun θ un => withPhase ps 1 fun β => xxMinusYY θ β q q1 un) b
  | .h => zSpider q .zero .hadamard b
  | .measure => .ok b
  | .i => .ok b
  | .sx => xSpider q (.ofRat (1 / 2)) .simple b
  | .sxdg => xSpider q (.ofRat (-1 / 2)) .simple b
  | _ => .throw

/-- Gates with one control and one target (506-555), apart from the check for swaps. -/
def single (ty : OpType) (ps : List Param) (c t : ℕ) : Action := fun b =>
  match ty with
  | .x => cnot c t b
  | .z => seq [zSpider c, zSpider t, link c t .hadamard] b
  | .i => .ok b
  | .p => withPhase ps 0 (fun φ => cphase φ c t) b
  | .t => cphase (.ofRat (1 / 4)) c t b
  | .s => cphase (.ofRat (1 / 2)) c t b
  | .tdg => cphase (.ofRat (-1 / 4)) c t b
  | .sdg => cphase (.ofRat (-1 / 2)) c t b
  | _ => .throw

/-- Gates with two controls (569-582). -/
def double (ty : OpType) (c0 c1 t : ℕ) : Action := fun b =>
  match ty with
  | .x => ccx c0 c1 t b
  | .z => seq [zSpider t .zero .hadamard, ccx c0 c1 t, zSpider t .zero .hadamard] b
  | _ => .throw

/-- `p.at(targets.front())`. -/
def front (p : PMap) : List ℕ → Res ℕ
  | [] => .ub
  | q :: _ => at' (p q)

/-- `p.at(targets[1])`. -/
def second (p : PMap) (ts : List ℕ) : Res ℕ := (lift ts[1]?).bind fun q => at' (p q)

/-- `parseOp` (309-589) for an operation of this type, parameters, controls and targets, apart from swaps. -/
def parseStd (p : PMap) (o : StdOp Param) : Action := fun b =>
  if o.type = .barrier then .ok b
  else
    match ctrlList o with
    | [] => (front p o.targets).bind fun q => plain o.type o.params q (second p o.targets) b
    | [c] =>
      if o.targets.length = 1 then
        (front p o.targets).bind fun q => (at' (p c)).bind fun c => single o.type o.params c q b
      else .throw
    | [c0, c1] =>
      (front p o.targets).bind fun q => (at' (p c0)).bind fun c0 => (at' (p c1)).bind fun c1 => double o.type c0 c1 q b
    | _ => .throw

/-- `getTargets()`. -/
def targets : Op Param → List ℕ
  | .std o => o.targets
  | .compound _ _ => []
  | .measure qs _ => qs
  | .reset qs => qs
  | .classic _ o => targets o

/-- `parseOp` for the next operation, without looking further. -/
def parse1 (p : PMap) : Op Param → Action
  | .std o => parseStd p o
  | o => fun b => (front p (targets o)).bind fun q => plain o.type [] q .ub b

/-- An operation that is a controlled X: its control and target. -/
def isCX {P : Type} : Op P → Option (StdOp P)
  | .std o => if o.type = .x ∧ o.controls.card = 1 then some o else none
  | _ => none

/-- `checkSwap` (32-49): the two operations that follow a CX with control `c` and target `t`. -/
def checkSwap (p : PMap) (c t : ℕ) : Op Param → Op Param → Res Bool := fun o1 o2 =>
  match isCX o1, isCX o2 with
  | some a, some b =>
    (front p a.targets).bind fun t1 => (front p b.targets).bind fun t2 =>
    (front p (ctrlList a)).bind fun c1 => (front p (ctrlList b)).bind fun c2 =>
    .ok (decide (c = t1 ∧ t1 = c2 ∧ t = c1 ∧ c1 = t2))
  | _, _ => .ok false

/-- Whether a swap is made of an operation and the two after it (the case of `X` in 506-520). -/
def swapAt (p : PMap) (o o1 o2 : Op Param) : Res (Option (ℕ × ℕ)) :=
  match isCX o with
  | some a =>
    if a.targets.length = 1 then
      (front p a.targets).bind fun t => (front p (ctrlList a)).bind fun c =>
      (checkSwap p c t o1 o2).bind fun r => .ok (if r then some (c, t) else none)
    else .ok none
  | none => .ok none

/-- `parseCompoundOp` (591-605) from the beginning of a sequence of operations to its end. -/
def parseL (p : PMap) : List (Op Param) → Action
  | [], b => .ok b
  | .compound ops _ :: r, b => (parseL p ops b).bind (parseL p r)
  | o :: o1 :: o2 :: r, b =>
    (swapAt p o o1 o2).bind fun
      | some (c, t) => (swap t c b).bind (parseL p r)
      | none => (parse1 p o b).bind (parseL p (o1 :: o2 :: r))
  | o :: r, b => (parse1 p o b).bind (parseL p r)
termination_by l => sizeOf l

/-- `initGraph` (ZXDiagram.cpp 304-316). -/
def initGraph : ℕ → Diagram
  | 0 => Diagram.empty
  | k + 1 =>
    let D := initGraph k
    let (D1, v) := D.addVertex ⟨k, Phase.zero, .boundary⟩
    { D1 with inputs := D1.inputs ++ [v] }

/-- `closeGraph` (ZXDiagram.cpp 318-330). -/
def closeGraph : List ℕ → Diagram → Res Diagram
  | [], D => .ok D
  | v :: r, D =>
    if v < D.size then
      match D.vert v with
      | none => closeGraph r D
      | some d =>
        let (D1, w) := D.addVertex ⟨d.qubit, Phase.zero, .boundary⟩
        (lift (D1.addEdge v w .simple)).bind fun D2 => closeGraph r { D2 with outputs := D2.outputs ++ [w] }
    else .ub

/-- The loop that takes the edges from inputs to outputs out (611-614). -/
def cutWires (n : ℕ) : ℕ → Diagram → Res Diagram
  | 0, D => .ok D
  | k + 1, D => (cutWires n k D).bind fun D => lift (D.removeEdge k (k + n))

/-- The loop that connects the wires with the outputs (620-622). -/
def connect (b : Build) : ℕ → Res Diagram
  | 0 => .ok b.D
  | k + 1 => (connect b k).bind fun D => (lift b.qs[k]?).bind fun v => (lift D.outputs[k]?).bind fun w =>
    lift (D.addEdge v w .simple)

/-- `buildFunctionality` (607-624). -/
def build (n : ℕ) (p : PMap) (ops : List (Op Param)) : Res Diagram :=
  (closeGraph (initGraph n).inputs (initGraph n)).bind fun D => (cutWires n n D).bind fun D =>
  (parseL p ops ⟨D, List.range n⟩).bind fun b => connect b b.qs.length

/-- `transformableToZX` of an operation that is not compound (642-707). -/
def transformable1 (ty : OpType) (nc nt : ℕ) : Bool :=
  if ty = .barrier then true
  else if nc = 0 then
    [OpType.gphase, .z, .rz, .p, .x, .rx, .y, .ry, .t, .tdg, .s, .sdg, .u2, .u, .swap, .iswap, .h, .measure, .i, .sx, .sxdg,
      .rzz, .rxx, .rzx, .ryy, .dcx, .ecr, .xxplusyy, .xxminusyy].contains ty
  else if nc = 1 ∧ nt = 1 then [OpType.x, .z, .i, .p, .t, .s, .tdg, .sdg].contains ty
  else if nc = 2 then [OpType.x, .z].contains ty
  else false

mutual
/-- `transformableToZX` (632-708). -/
def transformable : Op Param → Bool
  | .std o => transformable1 o.type o.controls.card o.targets.length
  | .compound ops _ => transformableL ops
  | o => transformable1 o.type 0 (targets o).length
/-- `transformableToZX` of a circuit (625-630). -/
def transformableL : List (Op Param) → Bool
  | [] => true
  | o :: r => transformable o && transformableL r
end

end Build

end MQT.ZX
