/-
Conditions: type checking them (`TypeCheckPass::visitIfStatement`, `visit`, src/qasm3/passes/TypeCheckPass.cpp 192-353,
379-393; `Type`, include/mqt-core/qasm3/Types.hpp 24-152) and importing `if` statements (`Importer::translateCondition`,
`visitIfStatement`, src/qasm3/Importer.cpp 154-262, 892-929).

An index is a constant.  The types of declared identifiers are shared objects: `setDesignator` on the type of an expression
that is an identifier changes the type in the environment.  Arrays are not modelled.  Assertions are not evaluated, as in
builds with NDEBUG.  Dereferencing a null pointer is undefined behaviour.
-/
import Verif.QASM.ConstEval
import Verif.QASM.Dump
import Verif.IR.ClassicControlled
import Verif.IR.Circuit

set_option autoImplicit false

namespace MQT.QASM.Cond

open MQT.IR
open Function (update)

/-! ### Model -/

/-- `DesignatedTy` (Types.hpp 54-61). -/
inductive Kind
  | qubit | bit | int | uint | float | angle
  deriving DecidableEq

/-- `DesignatedType`, `UnsizedType`. -/
inductive Ty
  | des (k : Kind) (w : ℕ)
  | bool
  | duration
  deriving DecidableEq

namespace Ty

/-- Types.hpp 110-112, 45. -/
def isNumber : Ty → Bool
  | des k _ => k = .int ∨ k = .uint ∨ k = .bit ∨ k = .float
  | _ => false

def isUint : Ty → Bool
  | des k _ => k = .uint
  | _ => false

def isFP : Ty → Bool
  | des k _ => k = .float
  | _ => false

def isBool : Ty → Bool
  | bool => true
  | _ => false

/-- Types.hpp 122-128, 48. -/
def toBool : Ty → Bool
  | des k w => k = .bit ∧ w = 1
  | bool => true
  | duration => false

/-- Only used for designated types. -/
def width : Ty → ℕ
  | des _ w => w
  | _ => 0

/-- `fits` (Types.cpp 38-51, Types.hpp 49). -/
def fits : Ty → Ty → Bool
  | des k w, des k' w' => (k = k' ∨ k = .int ∧ k' = .uint ∨ k = .float ∧ (k' = .int ∨ k' = .uint)) ∧ w' ≤ w
  | des _ _, _ => false
  | t, t' => t = t'

end Ty

/-- Expressions as the parser builds them; floats are not distinguished. -/
inductive CExpr
  | ident (name : String) (idx : Option ℕ)
  | int (signed : Bool) (v : ℕ)
  | bool (b : Bool)
  | flt
  | un (op : UnOp) (e : CExpr)
  | bin (op : BinOp) (l r : CExpr)
  deriving DecidableEq

/-- `InferredType`: an error, the type of an identifier, or a new type. -/
inductive Inf
  | error
  | var (name : String)
  | new (t : Ty)
  deriving DecidableEq

/-- Two of these are the same object if they are equal (TypeCheckPass.cpp 213). -/
def Inf.isVar : Inf → Bool
  | .var _ => true
  | _ => false

/-- `env` and `hasError`. -/
structure TC where
  env : String → Option Ty
  err : Bool

namespace TC

/-- `error` (TypeCheckPass.cpp 27-37). -/
def fail (s : TC) : TC := { s with err := true }

/-- The type pointed to; `none`: the null pointer. -/
def ty (s : TC) : Inf → Option Ty
  | .error => none
  | .var name => s.env name
  | .new t => some t

/-- `setDesignator` (Types.hpp 34-36, 102); it throws for types without designator. -/
def setDes (s : TC) (i : Inf) (w : ℕ) : Res (TC × Inf) :=
  match i with
  | .error => .ub
  | .var name =>
    match s.env name with
    | some (.des k _) => .ok ({ s with env := update s.env name (some (.des k w)) }, i)
    | some _ => .throw
    | none => .ub
  | .new (.des k _) => .ok (s, .new (.des k w))
  | .new _ => .throw

/-- `visitConstantExpression` (TypeCheckPass.cpp 298-323). -/
def intTy (signed : Bool) (v : ℕ) : Ty :=
  if signed then .des .int (if 2 ^ 31 - 1 < v then 64 else 32) else .des .uint (if 2 ^ 32 - 1 < v then 64 else 32)

/-- The switch over the operator (TypeCheckPass.cpp 223-261). -/
def binTy (s : TC) (op : BinOp) (i : Inf) (t : Ty) : TC × Inf :=
  match op with
  | .power | .add | .subtract | .multiply | .divide | .modulo | .leftShift | .rightShift
  | .bitwiseAnd | .bitwiseXor | .bitwiseOr => if t.isNumber then (s, i) else (s.fail, .error)
  | .lessThan | .lessThanOrEqual | .greaterThan | .greaterThanOrEqual =>
    if t.isBool then (s.fail, .error) else (s, .new .bool)
  | .equal | .notEqual => (s, .new .bool)
  | .logicalAnd | .logicalOr => if t.isBool then (s, i) else (s.fail, .error)

/-- `visitBinaryExpression` (TypeCheckPass.cpp 196-264), once the operands have been visited. -/
def binary (s : TC) (op : BinOp) (l r : Inf) : Res (TC × Inf) :=
  if r = .error then .ok (s, r)
  else if l = .error then .ok (s, l)
  else
    match s.ty l, s.ty r with
    | some tl, some tr =>
      if tl.toBool ∧ tr.toBool then .ok (s.binTy op (.new .bool) .bool)
      else if tl.isNumber ∧ tr.isNumber then
        (s.setDes (if tr.isFP ∨ tl.isUint then r else l) (max tl.width tr.width)).bind fun p =>
          match p.1.ty p.2 with
          | some t => .ok (p.1.binTy op p.2 t)
          | none => .ub
      else if l = r ∧ l.isVar then .ok (s.binTy op l tl)
      else .ok (s.fail, .error)
    | _, _ => .ub

end TC

open TC

/-- `visitUnaryExpression` (TypeCheckPass.cpp 268-296), once the operand has been visited. -/
def TC.unary (s : TC) (op : UnOp) (i : Inf) : Res (TC × Inf) :=
  match op with
  | .bitwiseNot =>
    match s.ty i with
    | none => .ub
    | some t => if t.isNumber then .ok (s, i) else .ok (s.fail, .error)
  | .logicalNot =>
    match s.ty i with
    | none => .ub
    | some t => if t.toBool then .ok (s, i) else .ok (s.fail, .error)
  | .negate => .ok (s, i)
  | .durationOf => .ok (s, .new .duration)
  | _ => .ok (s, .new (.des .float 64))

/-- `visit`. -/
def TC.visit (s : TC) : CExpr → Res (TC × Inf)
  | .ident name idx =>
    let i : TC × Inf := if (s.env name).isSome then (s, .var name) else (s.fail, .error)
    match idx with
    | none => .ok i
    | some _ => i.1.setDes i.2 1
  | .int signed v => .ok (s, .new (intTy signed v))
  | .bool _ => .ok (s, .new .bool)
  | .flt => .ok (s, .new (.des .float 64))
  | .un op e => (s.visit e).bind fun p => p.1.unary op p.2
  | .bin op l r => (s.visit l).bind fun p => (p.1.visit r).bind fun p' => p'.1.binary op p.2 p'.2

/-- `visitIfStatement` for the condition and `processStatement` (TypeCheckPass.cpp 39-49, 379-385). -/
def TC.checkIf (s : TC) (e : CExpr) : Res TC :=
  (s.visit e).bind fun p =>
    match p.2 with
    | .error => .throw
    | i =>
      match p.1.ty i with
      | none => .ub
      | some t => if t.toBool ∧ ¬ p.1.err then .ok p.1 else .throw

/-- `visitAssignmentStatement` for a measurement of so many qubits into a register (TypeCheckPass.cpp 152-176, 355-377). -/
def TC.checkMeasure (s : TC) (name : String) (n : ℕ) : Res TC :=
  match s.env name with
  | none => .throw
  | some t => if t.fits (.des .bit n) ∧ ¬ s.err then .ok s else .throw

/-- `getComparisonKind` (Statement.cpp 25-43). -/
def comparison : BinOp → Option Cmp
  | .lessThan => some .lt
  | .lessThanOrEqual => some .leq
  | .greaterThan => some .gt
  | .greaterThanOrEqual => some .geq
  | .equal => some .eq
  | .notEqual => some .neq
  | _ => none

/-- What `translateCondition` returns. -/
inductive CondR
  | bit (b : ℕ) (v : Bool)
  | reg (r : Reg) (k : Cmp) (v : ℕ)
  deriving DecidableEq

/-- `getUInt` of a constant (Statement.hpp). -/
def constant : CExpr → Option ℕ
  | .int _ v => some v
  | .bool b => some (if b then 1 else 0)
  | _ => none

def operandOf (name : String) : Option ℕ → Operand
  | none => .reg name
  | some i => .elem name i

/-- The one bit of an operand (Importer.cpp 246-251, 255-262). -/
def theBit (cregs : List Reg) (v : Bool) : CExpr → Res CondR
  | .ident name idx => (translate cregs (operandOf name idx)).bind fun bits =>
    match bits with
    | [] => .ub
    | b :: _ => .ok (.bit b v)
  | _ => .ub

/-- The register of a comparison (Importer.cpp 228-239): the index is not looked at. -/
def theReg (cregs : List Reg) (k : Cmp) (name : String) (v : ℕ) : Res CondR :=
  match cregs.find? (·.name = name) with
  | some r => .ok (.reg r k v)
  | none => .throw

/-- `translateCondition` (Importer.cpp 195-262).  A float constant is left out. -/
def translateCond (cregs : List Reg) : CExpr → Res CondR
  | .bin op l r =>
    match comparison op with
    | none => .throw
    | some k =>
      match l, constant l, r, constant r with
      | .ident name _, _, _, some v => theReg cregs k name v
      | _, some v, .ident name _, _ => theReg cregs k name v
      | _, _, _, _ => .throw
  | .un _ e => theBit cregs false e
  | e => theBit cregs true e

def ofOpt {α : Type} : Option α → Res α
  | some a => .ok a
  | none => .throw

/-- The condition of the operation for the first block (Importer.cpp 900-910). -/
def thenCC : CondR → Res CC
  | .bit b v => ofOpt (CC.mkBit b (if v then 1 else 0) .eq)
  | .reg r k v => .ok (CC.mkReg r.start r.size v k)

/-- The condition of the operation for the second block (Importer.cpp 913-927). -/
def elseCC : CondR → Res CC
  | .bit b v => ofOpt (CC.mkBit b (if v then 0 else 1) .eq)
  | .reg r k v => .ok (CC.mkReg r.start r.size v k.inverted)

/-- The operation for a block; nothing for a block without statements. -/
def guarded {α : Type} (cc : Res CC) : Option α → Res (List (CC × α))
  | none => .ok []
  | some o => cc.bind fun cc => .ok [(cc, o)]

/-- `visitIfStatement` (Importer.cpp 892-929). -/
def importIf {α : Type} (cregs : List Reg) (e : CExpr) (a b : Option α) : Res (List (CC × α)) :=
  (translateCond cregs e).bind fun c =>
    (guarded (thenCC c) a).bind fun l => (guarded (elseCC c) b).bind fun l' => .ok (l ++ l')

/-- Running the operations for the classical memory `m`; `none`: undefined behaviour. -/
def runCC {α σ : Type} (den : α → σ → σ) (m : ℕ → Bool) : List (CC × α) → σ → Option σ
  | [], ψ => some ψ
  | (c, o) :: l, ψ => (c.fires m).bind fun b => runCC den m l (if b then den o ψ else ψ)

/-! ### Specification -/

/-- The relation a comparison operator stands for. -/
def relation : BinOp → Option (ℕ → ℕ → Bool)
  | .lessThan => some fun a b => decide (a < b)
  | .lessThanOrEqual => some fun a b => decide (a ≤ b)
  | .greaterThan => some fun a b => decide (b < a)
  | .greaterThanOrEqual => some fun a b => decide (b ≤ a)
  | .equal => some fun a b => decide (a = b)
  | .notEqual => some fun a b => decide (a ≠ b)
  | _ => none

/-- The value of an expression for the classical memory `m`. -/
def value (cregs : List Reg) (m : ℕ → Bool) : CExpr → Option ℕ
  | .ident name idx =>
    match cregs.find? (·.name = name), idx with
    | some r, none => some (leValue m r.start r.size)
    | some r, some i => if i < r.size then some (if m (r.start + i) then 1 else 0) else none
    | none, _ => none
  | .int _ v => some v
  | .bool b => some (if b then 1 else 0)
  | .un .logicalNot e => (value cregs m e).map fun v => if v = 0 then 1 else 0
  | .un .bitwiseNot e => (value cregs m e).bind fun v => if v ≤ 1 then some (1 - v) else none
  | .bin op l r => (relation op).bind fun k => (value cregs m l).bind fun a => (value cregs m r).map fun b =>
      if k a b then 1 else 0
  | _ => none

/-- The condition holds. -/
def Holds (cregs : List Reg) (m : ℕ → Bool) (e : CExpr) : Prop := ∃ v, value cregs m e = some v ∧ v ≠ 0

/-- The environment knows the registers with their sizes, as bits. -/
def Declared (cregs : List Reg) (s : TC) : Prop :=
  ∀ r ∈ cregs, s.env r.name = some (.des .bit r.size)

/-- The conditions that are imported correctly: a bit, the negation of a bit, or a whole register compared with a constant;
the constant comes second, or the comparison is symmetric. -/
inductive Supported : CExpr → Prop
  | bit (name idx) : Supported (.ident name idx)
  | not (op name idx) : op = .logicalNot ∨ op = .bitwiseNot → Supported (.un op (.ident name idx))
  | cmp (op name c) : (relation op).isSome → (constant c).isSome → Supported (.bin op (.ident name none) c)
  | sym (op name c) : op = .equal ∨ op = .notEqual → (constant c).isSome → Supported (.bin op c (.ident name none))

/-! ### Lemmas -/

theorem leValue_one (m : ℕ → Bool) (start : ℕ) : leValue m start 1 = if m start then 1 else 0 := by
  simp [leValue]

theorem find_declared {cregs : List Reg} {s : TC} (hd : Declared cregs s) {name : String} {r : Reg}
    (h : cregs.find? (·.name = name) = some r) : s.env name = some (.des .bit r.size) := by
  have h1 := List.find?_some h
  simp only [decide_eq_true_eq] at h1
  rw [← h1]
  exact hd r (List.mem_of_find?_eq_some h)

/-- A register that passes as a truth value has one bit. -/
theorem check_one {cregs : List Reg} {s s' : TC} (hd : Declared cregs s) {name : String} {r : Reg} {e : CExpr}
    (he : e = .ident name none ∨ e = .un .logicalNot (.ident name none) ∨ e = .un .bitwiseNot (.ident name none))
    (hc : s.checkIf e = .ok s') (h : cregs.find? (·.name = name) = some r) : r.size = 1 := by
  have henv := find_declared hd h
  rcases he with rfl | rfl | rfl <;>
    simp only [TC.checkIf, TC.visit, henv, Option.isSome_some, if_true, Res.bind, TC.ty, TC.unary, Ty.isNumber, Ty.toBool,
      decide_eq_true_eq] at hc
  all_goals
    by_contra hne
    simp_all

/-- What a bit means. -/
theorem theBit_ok {cregs : List Reg} {v : Bool} {name : String} {idx : Option ℕ} {c : CondR}
    (h1 : idx = none → ∀ r, cregs.find? (·.name = name) = some r → r.size = 1) (h : theBit cregs v (.ident name idx) = .ok c) :
    ∃ b, c = .bit b v ∧ ∀ m, value cregs m (.ident name idx) = some (if m b then 1 else 0) := by
  simp only [theBit] at h
  cases idx with
  | none =>
    simp only [operandOf, translate] at h
    cases hf : cregs.find? (·.name = name) with
    | none => rw [hf] at h; cases h
    | some r =>
      rw [hf] at h
      simp only [h1 rfl r hf, Res.bind, List.range'_one, Res.ok.injEq] at h
      refine ⟨r.start, h.symm, fun m => ?_⟩
      simp only [value, hf, h1 rfl r hf, leValue_one]
  | some i =>
    simp only [operandOf, translate] at h
    cases hf : cregs.find? (·.name = name) with
    | none => rw [hf] at h; cases h
    | some r =>
      rw [hf] at h
      simp only at h
      split_ifs at h with hi
      · cases h
      simp only [Res.bind, Res.ok.injEq] at h
      refine ⟨r.start + i, h.symm, fun m => ?_⟩
      simp only [value, hf]
      rw [if_pos (by omega)]

theorem theBit_not_ub {cregs : List Reg} {v : Bool} {name : String} {idx : Option ℕ}
    (h1 : idx = none → ∀ r, cregs.find? (·.name = name) = some r → r.size = 1) : theBit cregs v (.ident name idx) ≠ .ub := by
  simp only [theBit]
  cases idx with
  | none =>
    simp only [operandOf, translate]
    cases hf : cregs.find? (·.name = name) with
    | none => simp [Res.bind]
    | some r => simp [h1 rfl r hf, Res.bind]
  | some i =>
    simp only [operandOf, translate]
    cases hf : cregs.find? (·.name = name) with
    | none => simp [Res.bind]
    | some r =>
      simp only
      split_ifs <;> simp [Res.bind]

/-- The two conditions say whether it holds or not. -/
def Decides (cregs : List Reg) (e : CExpr) (c : CondR) : Prop :=
  ∃ cc cc', thenCC c = .ok cc ∧ elseCC c = .ok cc' ∧ ∀ m, ∃ v, value cregs m e = some v ∧
    cc.fires m = some (decide (v ≠ 0)) ∧ cc'.fires m = some (decide (v = 0))

theorem decides_bit {cregs : List Reg} {e : CExpr} {b : ℕ} {v : Bool}
    (h : ∀ m, value cregs m e = some (if m b = v then 1 else 0)) : Decides cregs e (.bit b v) := by
  cases v with
  | true =>
    refine ⟨_, _, rfl, rfl, fun m => ⟨_, h m, ?_⟩⟩
    cases hb : m b <;> simp [CC.fires, hb, Cmp.holds]
  | false =>
    refine ⟨_, _, rfl, rfl, fun m => ⟨_, h m, ?_⟩⟩
    cases hb : m b <;> simp [CC.fires, hb, Cmp.holds]

theorem decides_reg {cregs : List Reg} {e : CExpr} {r : Reg} {k : Cmp} {v : ℕ} (hs : r.size ≤ 64)
    (h : ∀ m, value cregs m e = some (if k.holds (leValue m r.start r.size) v then 1 else 0)) : Decides cregs e (.reg r k v) := by
  refine ⟨_, _, rfl, rfl, fun m => ⟨_, h m, ?_⟩⟩
  simp only [CC.fires, CC.mkReg, regValue_eq m _ _ hs, Option.map_some, Option.some.injEq]
  cases k <;> simp [Cmp.holds, Cmp.inverted]

theorem constant_value {c : CExpr} {v : ℕ} (h : constant c = some v) (cregs : List Reg) (m : ℕ → Bool) : value cregs m c = some v := by
  cases c <;> simp_all [constant, value]

theorem constant_ident {c : CExpr} {v : ℕ} (h : constant c = some v) (name : String) (idx : Option ℕ) : c ≠ .ident name idx := by
  rintro rfl; cases h

theorem comparison_of {op : BinOp} (h : (relation op).isSome) : ∃ k, comparison op = some k ∧ relation op = some k.holds := by
  cases op <;> first | exact ⟨_, rfl, rfl⟩ | simp [relation] at h

theorem translateCond_decides {cregs : List Reg} {s s' : TC} (hd : Declared cregs s) (hsize : ∀ r ∈ cregs, r.size ≤ 64) {e : CExpr}
    (hs : Supported e) (hc : s.checkIf e = .ok s') {c : CondR} (h : translateCond cregs e = .ok c) : Decides cregs e c := by
  cases hs with
  | bit name idx =>
    obtain ⟨b, rfl, hv⟩ := theBit_ok (fun hn r hr => by subst hn; exact check_one hd (.inl rfl) hc hr) h
    exact decides_bit fun m => by rw [hv]
  | not op name idx hop =>
    obtain ⟨b, rfl, hv⟩ := theBit_ok (v := false) (fun hn r hr => by
      subst hn
      exact check_one hd (by rcases hop with rfl | rfl <;> simp) hc hr) h
    refine decides_bit fun m => ?_
    rcases hop with rfl | rfl <;> simp only [value] at hv ⊢ <;> rw [hv] <;> cases m b <;> simp
  | cmp op name cst hop hcst =>
    obtain ⟨k, hk, hrel⟩ := comparison_of hop
    obtain ⟨v, hv⟩ := Option.isSome_iff_exists.1 hcst
    simp only [translateCond, hk, hv, theReg] at h
    cases hf : cregs.find? (·.name = name) with
    | none => rw [hf] at h; cases h
    | some r =>
      rw [hf] at h
      simp only [Res.ok.injEq] at h
      subst h
      refine decides_reg (hsize r (List.mem_of_find?_eq_some hf)) fun m => ?_
      simp only [value, hrel, hf, constant_value hv, Option.bind_some, Option.map_some]
  | sym op name cst hop hcst =>
    obtain ⟨v, hv⟩ := Option.isSome_iff_exists.1 hcst
    have hk : ∃ k, comparison op = some k ∧ relation op = some k.holds ∧ ∀ a b, k.holds a b = k.holds b a := by
      rcases hop with rfl | rfl
      · exact ⟨_, rfl, rfl, fun a b => by simp [Cmp.holds, eq_comm]⟩
      · exact ⟨_, rfl, rfl, fun a b => by simp [Cmp.holds, eq_comm]⟩
    obtain ⟨k, hk, hrel, hsym⟩ := hk
    have ht : translateCond cregs (.bin op cst (.ident name none)) = theReg cregs k name v := by
      cases cst <;> simp_all [translateCond, constant]
    rw [ht, theReg] at h
    cases hf : cregs.find? (·.name = name) with
    | none => rw [hf] at h; cases h
    | some r =>
      rw [hf] at h
      simp only [Res.ok.injEq] at h
      subst h
      refine decides_reg (hsize r (List.mem_of_find?_eq_some hf)) fun m => ?_
      simp only [value, hrel, hf, constant_value hv, Option.bind_some, Option.map_some, hsym v]

theorem translateCond_not_ub {cregs : List Reg} {s s' : TC} (hd : Declared cregs s) {e : CExpr} (hs : Supported e)
    (hc : s.checkIf e = .ok s') : translateCond cregs e ≠ .ub := by
  have hreg : ∀ k name v, theReg cregs k name v ≠ .ub := by
    intro k name v
    unfold theReg
    split <;> simp
  cases hs with
  | bit name idx => exact theBit_not_ub fun hn r hr => by subst hn; exact check_one hd (.inl rfl) hc hr
  | not op name idx hop =>
    refine theBit_not_ub (v := false) fun hn r hr => ?_
    subst hn
    exact check_one hd (by rcases hop with rfl | rfl <;> simp) hc hr
  | cmp op name cst hop hcst =>
    obtain ⟨k, hk, _⟩ := comparison_of hop
    obtain ⟨v, hv⟩ := Option.isSome_iff_exists.1 hcst
    simp only [translateCond, hk, hv]
    exact hreg _ _ _
  | sym op name cst hop hcst =>
    obtain ⟨v, hv⟩ := Option.isSome_iff_exists.1 hcst
    rcases hop with rfl | rfl <;> cases cst <;> simp_all [translateCond, constant, comparison]

/-- The imported operations run one of the blocks. -/
theorem importIf_run {α σ : Type} {cregs : List Reg} {e : CExpr} {a b : Option α} {l : List (CC × α)} (den : α → σ → σ)
    (hdec : ∀ c, translateCond cregs e = .ok c → Decides cregs e c) (h : importIf cregs e a b = .ok l) (m : ℕ → Bool) (ψ : σ) :
    ∃ v, value cregs m e = some v ∧ runCC den m l ψ = some ((if v ≠ 0 then a else b).elim ψ fun o => den o ψ) := by
  unfold importIf at h
  cases hc : translateCond cregs e with
  | ub => rw [hc] at h; cases h
  | throw => rw [hc] at h; cases h
  | ok c =>
    obtain ⟨cc, cc', h1, h2, h3⟩ := hdec c hc
    obtain ⟨v, hv, hf, hf'⟩ := h3 m
    refine ⟨v, hv, ?_⟩
    rw [hc] at h
    simp only [Res.bind, h1, h2] at h
    rcases a with _ | a <;> rcases b with _ | b <;> simp only [Res.bind, guarded, Res.ok.injEq, List.nil_append, List.cons_append] at h <;>
      subst h <;> by_cases hv0 : v = 0 <;> simp [runCC, hf, hf', hv0]

/-! ### The types after checking -/

/-- The kind of a type. -/
def Ty.kind : Ty → Option Kind
  | des k _ => some k
  | _ => none

/-- The names in an expression. -/
def CExpr.names : CExpr → List String
  | .ident name _ => [name]
  | .un _ e => e.names
  | .bin _ l r => l.names ++ r.names
  | _ => []

/-- The names whose type may be changed: indexed, or in an operand of a binary operator. -/
def CExpr.touched : CExpr → List String
  | .ident name idx => if idx.isSome then [name] else []
  | .un _ e => e.touched
  | .bin _ l r => l.names ++ r.names
  | _ => []

/-- Only the designators of these names differ. -/
def Keeps (N : List String) (s s' : TC) : Prop :=
  ∀ x, (s'.env x).map Ty.kind = (s.env x).map Ty.kind ∧ (x ∉ N → s'.env x = s.env x)

theorem Keeps.refl (N : List String) (s : TC) : Keeps N s s := fun _ => ⟨rfl, fun _ => rfl⟩

theorem Keeps.fail {N : List String} {s s' : TC} (h : Keeps N s s') : Keeps N s s'.fail := h

theorem Keeps.trans {N : List String} {s s' s'' : TC} (h : Keeps N s s') (h' : Keeps N s' s'') : Keeps N s s'' := fun x =>
  ⟨(h' x).1.trans (h x).1, fun hx => ((h' x).2 hx).trans ((h x).2 hx)⟩

theorem Keeps.mono {N N' : List String} {s s' : TC} (h : Keeps N s s') (hN : ∀ x ∈ N, x ∈ N') : Keeps N' s s' := fun x =>
  ⟨(h x).1, fun hx => (h x).2 fun hx' => hx (hN x hx')⟩

/-- The name an inferred type belongs to. -/
def Inf.names : Inf → List String
  | .var x => [x]
  | _ => []

theorem setDes_keeps {s s' : TC} {i i' : Inf} {w : ℕ} (h : s.setDes i w = .ok (s', i')) :
    Keeps i.names s s' ∧ (∀ x ∈ i'.names, x ∈ i.names) := by
  unfold TC.setDes at h
  split at h
  · cases h
  · rename_i name
    split at h
    · rename_i k w' hk
      simp only [Res.ok.injEq, Prod.mk.injEq] at h
      obtain ⟨rfl, rfl⟩ := h
      refine ⟨fun x => ?_, fun x hx => hx⟩
      by_cases hx : x = name
      · subst hx
        refine ⟨by simp [hk, Ty.kind], fun hn => absurd (by simp [Inf.names]) hn⟩
      · simp [update, hx]
    · cases h
    · cases h
  · simp only [Res.ok.injEq, Prod.mk.injEq] at h
    obtain ⟨rfl, rfl⟩ := h
    exact ⟨.refl _ _, by simp [Inf.names]⟩
  · cases h

theorem binTy_keeps {s : TC} {op : BinOp} {i : Inf} {t : Ty} {N : List String} (hi : ∀ x ∈ i.names, x ∈ N) :
    Keeps N s (s.binTy op i t).1 ∧ ∀ x ∈ (s.binTy op i t).2.names, x ∈ N := by
  cases op <;> simp only [TC.binTy] <;> (try split_ifs) <;>
    first
    | exact ⟨.refl _ _, hi⟩
    | exact ⟨.refl _ _, by simp [Inf.names]⟩

theorem binary_keeps {s s' : TC} {op : BinOp} {l r i : Inf} (h : s.binary op l r = .ok (s', i)) :
    Keeps (l.names ++ r.names) s s' ∧ ∀ x ∈ i.names, x ∈ l.names ++ r.names := by
  unfold TC.binary at h
  by_cases h1 : r = .error
  · rw [if_pos h1] at h
    cases h
    exact ⟨.refl _ _, by simp +contextual⟩
  by_cases h2 : l = .error
  · rw [if_neg h1, if_pos h2] at h
    cases h
    exact ⟨.refl _ _, by simp +contextual⟩
  rw [if_neg h1, if_neg h2] at h
  split at h
  · rename_i tl tr _ _
    by_cases h3 : tl.toBool = true ∧ tr.toBool = true
    · rw [if_pos h3, Res.ok.injEq] at h
      have := binTy_keeps (s := s) (op := op) (i := .new .bool) (t := .bool) (N := l.names ++ r.names) (by simp [Inf.names])
      rw [h] at this
      exact this
    rw [if_neg h3] at h
    by_cases h4 : tl.isNumber = true ∧ tr.isNumber = true
    · rw [if_pos h4] at h
      generalize hsel : (if tr.isFP = true ∨ tl.isUint = true then r else l) = sel at h
      have hsub : ∀ x ∈ sel.names, x ∈ l.names ++ r.names := by
        rw [← hsel]; split_ifs <;> simp +contextual
      cases hres : s.setDes sel (max tl.width tr.width) with
      | ub => rw [hres] at h; cases h
      | throw => rw [hres] at h; cases h
      | ok p =>
        obtain ⟨s1, i1⟩ := p
        obtain ⟨k1, k2⟩ := setDes_keeps hres
        rw [hres] at h
        simp only [Res.bind] at h
        split at h
        · rename_i t _
          rw [Res.ok.injEq] at h
          have := binTy_keeps (s := s1) (op := op) (i := i1) (t := t) (N := l.names ++ r.names) fun x hx => hsub x (k2 x hx)
          rw [h] at this
          exact ⟨(k1.mono hsub).trans this.1, this.2⟩
        · cases h
    · rw [if_neg h4] at h
      by_cases h5 : l = r ∧ l.isVar = true
      · rw [if_pos h5, Res.ok.injEq] at h
        have := binTy_keeps (s := s) (op := op) (i := l) (t := tl) (N := l.names ++ r.names) (by simp +contextual)
        rw [h] at this
        exact this
      · rw [if_neg h5] at h
        cases h
        exact ⟨(Keeps.refl _ _).fail, by simp [Inf.names]⟩
  · cases h

theorem unary_keeps {s s' : TC} {op : UnOp} {i i' : Inf} (h : s.unary op i = .ok (s', i')) :
    s'.env = s.env ∧ ∀ x ∈ i'.names, x ∈ i.names := by
  cases op <;> simp only [TC.unary] at h <;> (repeat' split at h) <;> cases h <;>
    first
    | exact ⟨rfl, fun x hx => hx⟩
    | exact ⟨rfl, by simp [Inf.names]⟩

theorem visit_keeps {e : CExpr} {s s' : TC} {i : Inf} (h : s.visit e = .ok (s', i)) :
    Keeps e.touched s s' ∧ ∀ x ∈ i.names, x ∈ e.names := by
  induction e generalizing s s' i with
  | ident name idx =>
    simp only [TC.visit] at h
    cases idx with
    | none =>
      simp only [Res.ok.injEq] at h
      split_ifs at h <;> cases h
      · exact ⟨.refl _ _, by simp [Inf.names, CExpr.names]⟩
      · exact ⟨(Keeps.refl _ _).fail, by simp [Inf.names]⟩
    | some j =>
      simp only at h
      split_ifs at h
      · obtain ⟨h1, h2⟩ := setDes_keeps h
        exact ⟨by simpa [CExpr.touched, Inf.names] using h1, by simpa [CExpr.names, Inf.names] using h2⟩
      · cases h
  | int sg v => cases h; exact ⟨.refl _ _, by simp [Inf.names]⟩
  | bool b => cases h; exact ⟨.refl _ _, by simp [Inf.names]⟩
  | flt => cases h; exact ⟨.refl _ _, by simp [Inf.names]⟩
  | un op e ih =>
    simp only [TC.visit] at h
    cases hv : s.visit e with
    | ub => rw [hv] at h; cases h
    | throw => rw [hv] at h; cases h
    | ok p =>
      rw [hv] at h
      obtain ⟨s1, i1⟩ := p
      simp only [Res.bind] at h
      obtain ⟨a, b⟩ := ih hv
      obtain ⟨c, d⟩ := unary_keeps h
      refine ⟨fun x => ?_, fun x hx => b x (d x hx)⟩
      rw [c]
      exact a x
  | bin op l r ihl ihr =>
    simp only [TC.visit] at h
    cases hl : s.visit l with
    | ub => rw [hl] at h; cases h
    | throw => rw [hl] at h; cases h
    | ok p =>
      obtain ⟨s1, i1⟩ := p
      rw [hl] at h
      simp only [Res.bind] at h
      cases hr : s1.visit r with
      | ub => rw [hr] at h; cases h
      | throw => rw [hr] at h; cases h
      | ok p =>
        obtain ⟨s2, i2⟩ := p
        rw [hr] at h
        simp only at h
        obtain ⟨a, b⟩ := ihl hl
        obtain ⟨a', b'⟩ := ihr hr
        obtain ⟨c, d⟩ := binary_keeps h
        have ht : ∀ e : CExpr, ∀ x ∈ e.touched, x ∈ e.names := by
          intro e
          induction e with
          | ident name idx => cases idx <;> simp [CExpr.touched, CExpr.names]
          | un op e ih => exact ih
          | bin op l r _ _ => exact fun x hx => hx
          | _ => simp [CExpr.touched]
        have hin : ∀ x ∈ i1.names ++ i2.names, x ∈ l.names ++ r.names := fun x hx => by
          rcases List.mem_append.1 hx with h | h
          · exact List.mem_append_left _ (b x h)
          · exact List.mem_append_right _ (b' x h)
        refine ⟨?_, fun x hx => hin x (d x hx)⟩
        exact ((a.mono fun x hx => List.mem_append_left _ (ht l x hx)).trans
          (a'.mono fun x hx => List.mem_append_right _ (ht r x hx))).trans (c.mono hin)

end MQT.QASM.Cond
