/-
The type check of OpenQASM programs (src/qasm3/passes/TypeCheckPass.cpp, src/qasm3/Types.cpp, include/mqt-core/qasm3/Types.hpp).

Types are shared pointers, and `setDesignator` changes the type pointed to.  Here there is a heap of types, and a pointer is
an index of it; the null pointer of `InferredType::error()` is `none`, and reading through it is undefined behaviour.  An
expression is one after the constant evaluation (Verif/QASM/ConstEval.lean).  The indices of an identifier within an expression
are left out, because they are not visited; those of the operands of statements are there.  The size of a register is a literal.
Array types are left out, the parser has none.
-/
import Verif.Common.Res
import Mathlib.Data.List.Nodup
import Mathlib.Data.List.Basic
import Mathlib.Tactic.Ring

set_option autoImplicit false

namespace MQT.QASM.TypeCheck

/-! ### Model -/

/-- `DesignatedTy`. -/
inductive Kind
  | qubit | bit | int | uint | float | angle
  deriving DecidableEq

/-- `DesignatedType<uint64_t>`, `UnsizedType<uint64_t>`. -/
inductive Ty
  | sized (k : Kind) (w : ℕ)
  | bool
  | duration
  deriving DecidableEq

/-- `isNumber` (Types.hpp 112-114). -/
def Ty.isNumber : Ty → Bool
  | .sized k _ => k = .int ∨ k = .uint ∨ k = .bit ∨ k = .float
  | _ => false

/-- `isUint` (Types.hpp 116). -/
def Ty.isUint : Ty → Bool
  | .sized k _ => k = .uint
  | _ => false

/-- `isFP` (Types.hpp 120). -/
def Ty.isFP : Ty → Bool
  | .sized k _ => k = .float
  | _ => false

def Ty.isBool : Ty → Bool
  | .bool => true
  | _ => false

/-- `isConvertibleToBool` (Types.hpp 48, 122-128). -/
def Ty.toBool : Ty → Bool
  | .sized k w => k = .bit ∧ w = 1
  | .bool => true
  | .duration => false

/-- `fits` (Types.cpp 38-51, Types.hpp 49). -/
def Ty.fits : Ty → Ty → Bool
  | .sized k w, .sized k' w' => (k = k' ∨ k = .int ∧ k' = .uint ∨ k = .float ∧ (k' = .int ∨ k' = .uint)) ∧ w' ≤ w
  | .sized _ _, _ => false
  | t, t' => t = t'

/-- `getDesignator`: an exception for unsized types. -/
def Ty.width : Ty → Res ℕ
  | .sized _ w => .ok w
  | _ => .throw

/-- `setDesignator`: an exception for unsized types. -/
def Ty.setWidth (w : ℕ) : Ty → Res Ty
  | .sized k _ => .ok (.sized k w)
  | _ => .throw

/-- The width without designator (Types.cpp 53-70). -/
def Kind.width : Kind → ℕ
  | .qubit | .bit => 1
  | .int | .uint => 32
  | .float | .angle => 64

/-- `Constant`. -/
inductive Const
  | int (signed : Bool) (v : ℤ)
  | float
  | bool
  deriving DecidableEq

/-- `BinaryExpression::Op`. -/
inductive Bin
  | power | add | sub | mul | div | mod | shl | shr | lt | le | gt | ge | eq | ne | band | bxor | bor | land | lor
  deriving DecidableEq

/-- `UnaryExpression::Op`; `fn` are the six functions. -/
inductive Un
  | bnot | lnot | neg | durationOf | fn
  deriving DecidableEq

/-- Expressions: an identifier is one with an index or not. -/
inductive Ex
  | const (c : Const)
  | name (s : String) (indexed : Bool)
  | un (o : Un) (e : Ex)
  | bin (o : Bin) (l r : Ex)
  deriving DecidableEq

/-- `env`, the types pointed to, and `hasError`. -/
structure St where
  heap : List Ty
  env : List (String × ℕ)
  err : Bool
  deriving DecidableEq

/-- `make_shared`. -/
def alloc (t : Ty) (s : St) : Option ℕ × St := (some s.heap.length, { s with heap := s.heap ++ [t] })

/-- `error` (TypeCheckPass.cpp 28-37). -/
def fail (s : St) : Option ℕ × St := (none, { s with err := true })

/-- The type pointed to. -/
def deref (s : St) : Option ℕ → Res Ty
  | none => .ub
  | some p => match s.heap[p]? with
    | some t => .ok t
    | none => .ub

/-- `type->setDesignator(w)`. -/
def setWidth (s : St) (p : Option ℕ) (w : ℕ) : Res St :=
  (deref s p).bind fun t => (t.setWidth w).bind fun t' => match p with
    | some i => .ok { s with heap := s.heap.set i t' }
    | none => .ub

/-- `visitConstantExpression` (TypeCheckPass.cpp 298-323); the value of an unsigned constant is the one of its 64 bits. -/
def constTy : Const → Ty
  | .float => .sized .float 64
  | .bool => .bool
  | .int signed v => .sized (if signed then .int else .uint)
      (if (if signed then v > 2 ^ 31 - 1 else v % 2 ^ 64 > 2 ^ 32 - 1) then 64 else 32)

/-- The type of the operands (TypeCheckPass.cpp 203-221). -/
def operandTy (l r : Option ℕ) (s : St) : Res (Option ℕ × St) :=
  (deref s l).bind fun tl => (deref s r).bind fun tr =>
    if tl.toBool ∧ tr.toBool then .ok (alloc .bool s)
    else if tl.isNumber ∧ tr.isNumber then
      (tl.width).bind fun wl => (tr.width).bind fun wr =>
        (setWidth s (if tr.isFP ∨ tl.isUint then r else l) (max wl wr)).bind fun s' =>
          .ok (if tr.isFP ∨ tl.isUint then r else l, s')
    else if l ≠ r then .ok (fail s)
    else .ok (l, s)

/-- The type of the result (TypeCheckPass.cpp 223-263). -/
def resultTy (o : Bin) (p : Option ℕ) (s : St) : Res (Option ℕ × St) :=
  match o with
  | .power | .add | .sub | .mul | .div | .mod | .shl | .shr | .band | .bxor | .bor =>
    (deref s p).bind fun t => .ok (if t.isNumber then (p, s) else fail s)
  | .lt | .le | .gt | .ge => (deref s p).bind fun t => .ok (if t.isBool then fail s else alloc .bool s)
  | .eq | .ne => .ok (alloc .bool s)
  | .land | .lor => (deref s p).bind fun t => .ok (if t.isBool then (p, s) else fail s)

/-- `visit` of an expression (TypeCheckPass.cpp 192-353). -/
def visit : Ex → St → Res (Option ℕ × St)
  | .const c, s => .ok (alloc (constTy c) s)
  | .name x indexed, s =>
    match s.env.lookup x with
    | none => if indexed then .ub else .ok (fail s)
    | some p => if indexed then (setWidth s (some p) 1).bind fun s' => .ok (some p, s') else .ok (some p, s)
  | .un o e, s => (visit e s).bind fun a =>
    match o with
    | .bnot => (deref a.2 a.1).bind fun t => .ok (if t.isNumber then a else fail a.2)
    | .lnot => (deref a.2 a.1).bind fun t => .ok (if t.toBool then a else fail a.2)
    | .neg => .ok a
    | .durationOf => .ok (alloc .duration a.2)
    | .fn => .ok (alloc (.sized .float 64) a.2)
  | .bin o l r, s => (visit l s).bind fun a => (visit r a.2).bind fun b =>
    if a.1 = none ∨ b.1 = none then .ok (none, b.2)
    else (operandTy a.1 b.1 b.2).bind fun c => if c.1 = none then .ok c else resultTy o c.1 c.2

/-- An operand: its name and indices. -/
inductive Operand
  | hw
  | ref (name : String) (ix : List Ex)
  deriving DecidableEq

/-- `checkIndexOperator` (TypeCheckPass.cpp 51-57), for all indices. -/
def checkIndices : List Ex → St → Res St
  | [], s => .ok s
  | e :: l, s => (visit e s).bind fun a =>
    if a.1 = none then checkIndices l a.2
    else (deref a.2 a.1).bind fun t => checkIndices l (if t.isUint then a.2 else { a.2 with err := true })

/-- `checkIndexedIdentifier` (TypeCheckPass.cpp 59-67). -/
def checkRef (x : String) (ix : List Ex) (s : St) : Res St :=
  checkIndices ix (if s.env.lookup x = none then { s with err := true } else s)

/-- `checkGateOperand` (TypeCheckPass.cpp 69-74). -/
def checkOperand (o : Operand) (s : St) : Res St :=
  match o with
  | .hw => .ok s
  | .ref x ix => checkRef x ix s

def checkOperands : List Operand → St → Res St
  | [], s => .ok s
  | o :: l, s => (checkOperand o s).bind fun s' => checkOperands l s'

/-- `visitMeasureExpression` (TypeCheckPass.cpp 355-377). -/
def visitMeasure (o : Operand) (s : St) : Res (Option ℕ × St) :=
  match o with
  | .hw => .ok (alloc (.sized .bit 1) s)
  | .ref x ix => (checkRef x ix s).bind fun s' =>
    if ix ≠ [] then .ok (alloc (.sized .bit 1) s')
    else match s'.env.lookup x with
      | none => .ok (fail s')
      | some p => (deref s' (some p)).bind fun t => (t.width).bind fun w => .ok (alloc (.sized .bit w) s')

/-- The right-hand side of an assignment or a declaration. -/
inductive Rhs
  | expr (e : Ex)
  | measure (o : Operand)
  deriving DecidableEq

def visitRhs : Rhs → St → Res (Option ℕ × St)
  | .expr e, s => visit e s
  | .measure o, s => visitMeasure o s

/-- The type of a declaration, with a designator or not. -/
inductive Decl
  | sized (k : Kind) (d : Option Const)
  | bool
  | duration
  deriving DecidableEq

/-- The resolved type (ConstEvalPass.cpp 595-619). -/
def Decl.resolve : Decl → Res Ty
  | .sized k none => .ok (.sized k k.width)
  | .sized k (some (.int signed v)) => if signed ∧ v < 0 then .throw else .ok (.sized k (v % 2 ^ 64).toNat)
  | .sized _ _ => .throw
  | .bool => .ok .bool
  | .duration => .ok .duration

/-- The check of the designator (TypeCheckPass.cpp 107-116). -/
def Decl.designatorOk : Decl → Bool
  | .sized _ (some c) => (constTy c).isUint
  | _ => true

/-- Quantum statements; of a gate call the arguments. -/
inductive Quantum
  | call (args : List Ex)
  | barrier (qs : List Operand)
  | reset (q : Operand)
  deriving DecidableEq

/-- Statements; `other` are version declarations and layouts. -/
inductive Stmt
  | decl (ty : Decl) (name : String) (init : Option Rhs)
  | gate (params qubits : List String) (body : List Quantum)
  | assign (name : String) (ix : List Ex) (rhs : Rhs)
  | quantum (q : Quantum)
  | ite (c : Ex) (t e : List Stmt)
  | other

/-- `env.emplace`: a name that is there stays. -/
def emplace (x : String) (t : Ty) (s : St) : St :=
  if s.env.lookup x = none then { s with heap := s.heap ++ [t], env := (x, s.heap.length) :: s.env } else { s with heap := s.heap ++ [t] }

def visitArgs : List Ex → St → Res St
  | [], s => .ok s
  | e :: l, s => (visit e s).bind fun a => visitArgs l a.2

/-- Quantum statements (TypeCheckPass.cpp 148-153, 180-190). -/
def quantum : Quantum → St → Res St
  | .call as, s => visitArgs as s
  | .barrier qs, s => checkOperands qs s
  | .reset q, s => checkOperand q s

def quantums : List Quantum → St → Res St
  | [], s => .ok s
  | q :: l, s => (quantum q s).bind fun s' => quantums l s'

/-- Whether an initial value fits (TypeCheckPass.cpp 126-137). -/
def checkInit (t : Ty) (init : Option Rhs) (s : St) : Res St :=
  match init with
  | none => .ok s
  | some r => (visitRhs r s).bind fun a =>
    if a.1 = none then .ok a.2
    else (deref a.2 a.1).bind fun t' => .ok (if t.fits t' then a.2 else { a.2 with err := true })

mutual
/-- Statements (TypeCheckPass.cpp 76-190, 379-393). -/
def stmt : Stmt → St → Res St
  | .decl ty x init, s =>
    if ty.designatorOk then
      (ty.resolve).bind fun t => (checkInit t init s).bind fun s' => .ok (emplace x t s')
    else .ok { s with err := true }
  | .gate ps qs body, s =>
    (quantums body (qs.foldl (fun s x => emplace x (.sized .qubit 1) s) (ps.foldl (fun s x => emplace x (.sized .float 64) s) s))).bind
      fun s' => .ok { s' with env := s.env }
  | .assign x ix rhs, s => (checkRef x ix s).bind fun s' => (visitRhs rhs s').bind fun a =>
    match a.2.env.lookup x with
    | none => .ok { a.2 with err := true }
    | some p => (deref a.2 (some p)).bind fun t => (deref a.2 a.1).bind fun t' =>
      .ok (if t.fits t' then a.2 else { a.2 with err := true })
  | .quantum q, s => quantum q s
  | .ite c t e, s => (visit c s).bind fun a =>
    (if a.1 = none then .ok a.2
      else (deref a.2 a.1).bind fun ty => .ok (if ty.toBool then a.2 else { a.2 with err := true })).bind fun s1 =>
    (stmts t s1).bind fun s2 => stmts e s2
  | .other, s => .ok s

def stmts : List Stmt → St → Res St
  | [], s => .ok s
  | x :: l, s => (stmt x s).bind fun s' => stmts l s'
end

/-- `processStatement` (TypeCheckPass.cpp 39-49). -/
def process (x : Stmt) (s : St) : Res St := (stmt x s).bind fun s' => if s'.err then .throw else .ok s'

def program : List Stmt → St → Res St
  | [], s => .ok s
  | x :: l, s => (process x s).bind fun s' => program l s'

/-- The builtins, which have one type (Importer.cpp 76-99, 282-289). -/
def start : St := ⟨[.sized .float 64], ["pi", "π", "tau", "τ", "euler", "ℇ"].map fun x => (x, 0), false⟩

/-! ### Specification -/

/-- The types of the identifiers. -/
abbrev Ctx := String → Option Ty

/-- The types of the identifiers in a state. -/
def St.ctx (s : St) : Ctx := fun x => (s.env.lookup x).bind fun p => s.heap[p]?

/-- The common type of two operands. -/
def Common (t t' u : Ty) : Prop :=
  t.toBool = true ∧ t'.toBool = true ∧ u = .bool ∨
  ¬ (t.toBool = true ∧ t'.toBool = true) ∧ ∃ k w k' w', t = .sized k w ∧ t' = .sized k' w' ∧ t.isNumber = true ∧ t'.isNumber = true ∧
    u = .sized (if k' = .float ∨ k = .uint then k' else k) (max w w')

/-- The type of an operation on operands of a common type. -/
def ResultOf (o : Bin) (u t : Ty) : Prop :=
  match o with
  | .power | .add | .sub | .mul | .div | .mod | .shl | .shr | .band | .bxor | .bor => u.isNumber = true ∧ t = u
  | .lt | .le | .gt | .ge => u.isBool = false ∧ t = .bool
  | .eq | .ne => t = .bool
  | .land | .lor => u = .bool ∧ t = u

/-- The type of an expression. -/
inductive HasTy (Γ : Ctx) : Ex → Ty → Prop
  | const (c : Const) : HasTy Γ (.const c) (constTy c)
  | name {x : String} {t : Ty} : Γ x = some t → HasTy Γ (.name x false) t
  | elem {x : String} {k : Kind} {w : ℕ} : Γ x = some (.sized k w) → HasTy Γ (.name x true) (.sized k 1)
  | bnot {e : Ex} {t : Ty} : HasTy Γ e t → t.isNumber = true → HasTy Γ (.un .bnot e) t
  | lnot {e : Ex} {t : Ty} : HasTy Γ e t → t.toBool = true → HasTy Γ (.un .lnot e) t
  | neg {e : Ex} {t : Ty} : HasTy Γ e t → HasTy Γ (.un .neg e) t
  | durationOf {e : Ex} {t : Ty} : HasTy Γ e t → HasTy Γ (.un .durationOf e) .duration
  | fn {e : Ex} {t : Ty} : HasTy Γ e t → HasTy Γ (.un .fn e) (.sized .float 64)
  | bin {o : Bin} {l r : Ex} {t t' u v : Ty} : HasTy Γ l t → HasTy Γ r t' → Common t t' u → ResultOf o u v → HasTy Γ (.bin o l r) v

/-- The identifiers of an expression. -/
def Ex.names : Ex → List String
  | .const _ => []
  | .name x _ => [x]
  | .un _ e => e.names
  | .bin _ l r => l.names ++ r.names

end MQT.QASM.TypeCheck
