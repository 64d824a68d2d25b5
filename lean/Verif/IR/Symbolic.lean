/-
Operations with symbolic parameters.

Source in /repo: src/ir/operations/SymbolicOperation.cpp 42-453, src/ir/QuantumComputation.cpp 1090-1115
(`isVariableFree`, `instantiateInplace`).

`par` and `sym` are the vectors `parameter` and `symbolicParameter`. `std::vector::at` outside of the bounds throws; `operator[]`
outside of the bounds is `ub`. As in `ParseU`, numbers are real, the tolerance and the rounding function are parameters; an angle
that would become infinite is `ub` as well. Assertions are off: a `p` gate with more than one parameter is read by its first
parameter.
-/
import Verif.Common.Res
import Verif.IR.Expression
import Verif.IR.ParseU

set_option autoImplicit false

noncomputable section

open Classical

namespace MQT.IR.Symb

open ParseU
open OpType (p u2 u gphase rx ry rz rxx ryy rzz rzx xxminusyy xxplusyy)
open MQT.Sym (Symbolic)

/-- `SymbolOrNumber`. -/
inductive Par where
  | num (x : ℝ)
  | sym (e : Symbolic)

/-- The object. -/
structure SymOp where
  type : OpType
  par : List ℝ
  sym : List (Option Symbolic)
  controls : Finset Ctrl
  targets : List ℕ

variable (tol : ℝ) (nr : ℝ → ℤ)

def lift {α : Type} : Option α → Res α
  | some a => .ok a
  | Option.none => .ub

/-- A parser that keeps the type `ty` changes the parameters in place and keeps the further ones `r`; otherwise it replaces them. -/
def inPlace (ty : OpType) (r : List ℝ) (x : OpType × List ℝ) : OpType × List ℝ := if x.1 = ty then (x.1, x.2 ++ r) else x

/-- `StandardOperation::checkUgate` (StandardOperation.cpp 172-186) without the assertions. -/
def check (ty : OpType) (ps : List ℝ) : Res (OpType × List ℝ) :=
  if ps.isEmpty then .ok (ty, ps)
  else match ty, ps with
    | p, l :: r => lift ((parseU1 tol nr l).map (inPlace p r))
    | u2, f :: l :: r => lift ((parseU2 tol nr f l).map (inPlace u2 r))
    | u2, _ => .throw
    | u, a :: f :: l :: r => lift ((parseU3 tol nr a f l).map (inPlace u r))
    | u, _ => .throw
    | ty, ps => .ok (ty, ps)

/-- `parseU3` for a symbolic first angle (63-93): the new second and third angle. -/
def parseSNN (f l : ℝ) : Option (ℝ × ℝ) :=
  let l1 := clamp (Near tol l 0) 0 l
  let f1 := clamp (Near tol l 0 ∧ Near tol f 0) 0 f
  let l2 := clamp (Near tol l1 (Real.pi / 2)) (Real.pi / 2) l1
  let f2 := clamp (Near tol l1 (Real.pi / 2) ∧ Near tol f1 (Real.pi / 2)) (Real.pi / 2) f1
  let l3 := clamp (Near tol l2 Real.pi) Real.pi l2
  let f3 := clamp (Near tol l2 Real.pi ∧ Near tol f2 0) 0 f2
  match fix tol nr l3, fix tol nr f3 with
  | some l', some f' => some (f', l')
  | _, _ => Option.none

/-- The third angle in `parseU3` for a symbolic second angle (94-118). -/
def clampL (l : ℝ) : ℝ :=
  let l1 := clamp (Near tol l 0) 0 l
  let l2 := clamp (Near tol l1 (Real.pi / 2)) (Real.pi / 2) l1
  clamp (Near tol l2 Real.pi) Real.pi l2

/-- `checkSymbolicUgate` (197-234) with the parsers (63-195). -/
def checkSym (ty : OpType) (par : List ℝ) (sym : List (Option Symbolic)) : Res (OpType × List ℝ) :=
  match ty with
  | p => match sym, par with
    | [], _ => .throw
    | some _ :: _, _ => .ok (p, par)
    | .none :: _, l :: r => lift ((parseU1 tol nr l).map (inPlace p r))
    | .none :: _, [] => .ub
  | u2 => match sym, par with
    | .none :: .none :: _, f :: l :: r => lift ((parseU2 tol nr f l).map (inPlace u2 r))
    | some _ :: _, f :: l :: r => lift ((fix tol nr l).map fun l' => (u2, f :: l' :: r))
    | .none :: some _ :: _, f :: l :: r => lift ((fix tol nr f).map fun f' => (u2, f' :: l :: r))
    | [], _ => .throw
    | [.none], _ => .throw
    | _, _ => .ub
  | u => match sym, par with
    | .none :: .none :: .none :: _, a :: f :: l :: r => lift ((parseU3 tol nr a f l).map (inPlace u r))
    | .none :: .none :: some _ :: _, a :: f :: l :: r =>
      if Near tol a 0 ∧ Near tol f 0 then .ok (p, 0 :: 0 :: l :: r)
      else if Near tol a (Real.pi / 2) then lift ((fix tol nr f).map fun f' => (u2, Real.pi / 2 :: f' :: l :: r))
      else match fix tol nr f, fix tol nr a with
        | some f', some a' => .ok (u, a' :: f' :: l :: r)
        | _, _ => .ub
    | .none :: some _ :: .none :: _, a :: f :: l :: r =>
      if Near tol a (Real.pi / 2) then lift ((fix tol nr l).map fun l' => (u2, Real.pi / 2 :: f :: l' :: r))
      else match fix tol nr (clampL tol l), fix tol nr a with
        | some l', some a' => .ok (u, a' :: f :: l' :: r)
        | _, _ => .ub
    | some _ :: .none :: .none :: _, a :: f :: l :: r =>
      lift ((parseSNN tol nr f l).map fun x => (u, a :: x.1 :: x.2 :: r))
    | .none :: some _ :: some _ :: _, a :: f :: l :: r =>
      if Near tol a (Real.pi / 2) then .ok (u2, Real.pi / 2 :: f :: l :: r)
      else lift ((fix tol nr a).map fun a' => (u, a' :: f :: l :: r))
    | some _ :: .none :: some _ :: _, a :: f :: l :: r => lift ((fix tol nr f).map fun f' => (u, a :: f' :: l :: r))
    | some _ :: some _ :: .none :: _, a :: f :: l :: r => lift ((fix tol nr l).map fun l' => (u, a :: f :: l' :: r))
    | some _ :: some _ :: some _ :: _, _ => .ok (u, par)
    | _ :: _ :: _ :: _, _ => .ub
    | _, _ => .throw
  | ty => .ok (ty, par)

/-- The number stored for a parameter (`storeSymbolOrNumber`, 42-49; `resize` fills with zeros). -/
def Par.toNum : Par → ℝ
  | .num x => x
  | .sym _ => 0

def Par.toSym : Par → Option Symbolic
  | .num _ => Option.none
  | .sym e => some e

/-- The constructors with `setup` (236-245, 270-318). -/
def new (ty : OpType) (params : List Par) (cs : Finset Ctrl) (ts : List ℕ) : Res SymOp :=
  (checkSym tol nr ty (params.map Par.toNum) (params.map Par.toSym)).bind fun r =>
    .ok ⟨r.1, r.2, params.map Par.toSym, cs, ts⟩

/-- `getParameter` and `getInstantiation` (247-261). -/
def value (asg : ℕ → Option ℝ) : Option Symbolic → Option ℝ → Res ℝ
  | some e, _ => e.evaluate asg
  | .none, some x => .ok x
  | .none, .none => .throw

/-- The values of all parameters. -/
def values (asg : ℕ → Option ℝ) : List (Option Symbolic) → List ℝ → Res (List ℝ)
  | [], _ => .ok []
  | s :: ss, ps => (value asg s ps.head?).bind fun v => (values asg ss ps.tail).bind fun vs => .ok (v :: vs)

/-- `getInstantiatedOperation` (374-383): the constructor canonicalises. -/
def SymOp.instantiated (asg : ℕ → Option ℝ) (o : SymOp) : Res (StdOp ℝ) :=
  (values asg o.sym o.par).bind fun vs => (check tol nr o.type vs).bind fun r => .ok ⟨r.1, r.2, o.controls, o.targets⟩

/-- `instantiate` (387-393). -/
def SymOp.instantiate (asg : ℕ → Option ℝ) (o : SymOp) : Res SymOp :=
  (values asg o.sym o.par).bind fun vs =>
    if o.par.length < o.sym.length then .throw
    else (check tol nr o.type (vs ++ o.par.drop o.sym.length)).bind fun r =>
      .ok ⟨r.1, r.2, o.sym.map fun _ => Option.none, o.controls, o.targets⟩

/-- `isStandardOperation` (327-330). -/
def SymOp.isStandard (o : SymOp) : Bool := o.sym.all fun s => s.isNone

/-- The standard operation the object is as well. -/
def SymOp.toStd (o : SymOp) : StdOp ℝ := ⟨o.type, o.par, o.controls, o.targets⟩

/-- `negateSymbolicParameter` (395-403). -/
def negAt (i : ℕ) (x : List ℝ × List (Option Symbolic)) : Res (List ℝ × List (Option Symbolic)) :=
  match x.2[i]? with
  | .none => .throw
  | some (some e) => .ok (x.1, x.2.set i (some e.neg))
  | some .none => match x.1[i]? with
    | .none => .throw
    | some a => .ok (x.1.set i (-a), x.2)

/-- `addToSymbolicParameter` (405-414). -/
def addAt (i : ℕ) (v : ℝ) (x : List ℝ × List (Option Symbolic)) : Res (List ℝ × List (Option Symbolic)) :=
  match x.2[i]? with
  | .none => .throw
  | some (some e) => .ok (x.1, x.2.set i (some ⟨e.terms, e.const + v⟩))
  | some .none => match x.1[i]? with
    | .none => .throw
    | some a => .ok (x.1.set i (a + v), x.2)

/-- `std::swap` of two elements. -/
def swapAt {α : Type} (i j : ℕ) (l : List α) : Res (List α) :=
  match l[i]?, l[j]? with
  | some a, some b => .ok ((l.set i b).set j a)
  | _, _ => .ub

def swapBoth (i j : ℕ) (x : List ℝ × List (Option Symbolic)) : Res (List ℝ × List (Option Symbolic)) :=
  (swapAt i j x.1).bind fun a => (swapAt i j x.2).bind fun b => .ok (a, b)

/-- The parameters changed by `invert` (416-453), or `none`: `StandardOperation::invert` is called. -/
def invPars (ty : OpType) (x : List ℝ × List (Option Symbolic)) : Option (Res (List ℝ × List (Option Symbolic))) :=
  match ty with
  | gphase | p | rx | ry | rz | rxx | ryy | rzz | rzx | xxminusyy | xxplusyy => some (negAt 0 x)
  | u2 => some ((negAt 0 x).bind fun x => (negAt 1 x).bind fun x => (addAt 0 (-Real.pi) x).bind fun x =>
      (addAt 1 Real.pi x).bind fun x => swapBoth 0 1 x)
  | u => some ((negAt 0 x).bind fun x => (negAt 1 x).bind fun x => (negAt 2 x).bind fun x => swapBoth 1 2 x)
  | _ => Option.none

/-- `invert` (416-453). -/
def SymOp.invert (o : SymOp) : Res SymOp :=
  match invPars o.type (o.par, o.sym) with
  | some r => r.bind fun x => .ok ⟨o.type, x.1, x.2, o.controls, o.targets⟩
  | .none => match o.toStd.invert with
    | some s => .ok ⟨s.type, s.params, o.sym, s.controls, s.targets⟩
    | .none => .throw

/-- The loop of `equals` (344-359). -/
def eqLoop : List (Option Symbolic) → List (Option Symbolic) → Res Bool
  | [], _ => .ok true
  | _ :: _, [] => .throw
  | .none :: l, .none :: l' => eqLoop l l'
  | some e :: _, some e' :: _ => .ok (decide (e.eq e'))
  | _ :: _, _ :: _ => .ok false

/-- `equals` (332-360) with another such object. -/
def SymOp.equals (f1 f2 : ℕ → ℕ) (o o' : SymOp) : Res Bool :=
  if o'.isStandard ∧ ¬ o.isStandard then .ok false
  else if o.isStandard ∧ StdOp.equals f1 f2 o.toStd o'.toStd then .ok true
  else if o'.isStandard then .ok false
  else eqLoop o.sym o'.sym

/-! ### Circuits -/

/-- Operations of a circuit, as far as symbols are concerned. -/
inductive COp where
  | std (o : StdOp ℝ)
  | symb (o : SymOp)
  | compound (l : List COp)

mutual
/-- `isSymbolicOperation` (SymbolicOperation.cpp 323-326, CompoundOperation.cpp 90-93). -/
def COp.symbolic : COp → Bool
  | .std _ => false
  | .symb o => !o.isStandard
  | .compound l => COp.symbolicL l
def COp.symbolicL : List COp → Bool
  | [] => false
  | o :: l => o.symbolic || COp.symbolicL l
end

/-- `isVariableFree` (1090-1093). -/
def variableFree (ops : List COp) : Bool := !COp.symbolicL ops

/-- One turn of the loop of `instantiateInplace` (1098-1108). -/
def COp.instantiate (asg : ℕ → Option ℝ) : COp → Res COp
  | .symb o => (o.instantiate tol nr asg).bind fun o' => .ok (if o'.isStandard then .std o'.toStd else .symb o')
  | o => .ok o

/-- `instantiateInplace` (1096-1115) on the operations. -/
def instantiateAll (asg : ℕ → Option ℝ) : List COp → Res (List COp)
  | [] => .ok []
  | o :: l => (o.instantiate tol nr asg).bind fun o' => (instantiateAll asg l).bind fun l' => .ok (o' :: l')

end MQT.IR.Symb
