/-
Constant evaluation (`src/qasm3/passes/ConstEvalPass.cpp`).

A 64-bit integer is a `BitVec 64`, whatever its signedness.  `double` is an arbitrary type with arbitrary operations.
The language is C++17: overflow of signed integers, division by zero and shifts by a negative number or by 64 or more
are undefined behaviour, as is shifting a negative number to the left; shifting one to the right is
implementation-defined and taken to be arithmetic.
-/
import Verif.QASM.Env
import Verif.Common.Res
import Mathlib.Algebra.Order.Ring.Int
import Mathlib.Data.Int.Bitwise
import Mathlib.Tactic.Linarith
import Mathlib.Tactic.NormNum

set_option autoImplicit false

namespace MQT.QASM

/-! ### Model -/

/-- Statement.hpp 111-131. -/
inductive BinOp
  | power | add | subtract | multiply | divide | modulo | leftShift | rightShift
  | lessThan | lessThanOrEqual | greaterThan | greaterThanOrEqual | equal | notEqual
  | bitwiseAnd | bitwiseXor | bitwiseOr | logicalAnd | logicalOr
  deriving DecidableEq

/-- Statement.hpp 150-161. -/
inductive UnOp
  | bitwiseNot | logicalNot | negate | durationOf | sin | cos | tan | exp | ln | sqrt
  deriving DecidableEq

/-- The operations on `double`. -/
structure FloatOps (F : Type) where
  pow : F → F → F
  add : F → F → F
  sub : F → F → F
  mul : F → F → F
  div : F → F → F
  fmod : F → F → F
  lt : F → F → Bool
  le : F → F → Bool
  eq : F → F → Bool
  neg : F → F
  fn : UnOp → F → F
  ofInt : ℤ → F

/-- `ConstEvalValue` (ConstEvalPass.hpp 27-50).  The width of floats and truth values is never used. -/
inductive Value (F : Type)
  | int (v : BitVec 64) (width : ℕ)
  | uint (v : BitVec 64) (width : ℕ)
  | flt (x : F)
  | bool (b : Bool)
  deriving DecidableEq

variable {F : Type}

/-- The loop of `power` for `int64_t` (ConstEvalPass.cpp 37-42), with so many iterations to go. -/
def powLoopS (b : ℤ) : ℕ → ℤ → Res ℤ
  | 0, r => .ok r
  | k + 1, r =>
    if b = 0 then .ub
    else if r > (2 ^ 63 - 1 : ℤ).tdiv b then .throw
    else if r * b < -2 ^ 63 ∨ 2 ^ 63 ≤ r * b then .ub
    else powLoopS b k (r * b)

/-- `power<int64_t>` (ConstEvalPass.cpp 31-44). -/
def powerS (b e : ℤ) : Res ℤ := if e = 0 then .ok 1 else powLoopS b e.toNat 1

/-- The loop of `power` for `uint64_t`. -/
def powLoopU (b : ℕ) : ℕ → ℕ → Res ℕ
  | 0, r => .ok r
  | k + 1, r =>
    if b = 0 then .ub
    else if r > (2 ^ 64 - 1) / b then .throw
    else powLoopU b k (r * b % 2 ^ 64)

/-- `power<uint64_t>`. -/
def powerU (b e : ℕ) : Res ℕ := if e = 0 then .ok 1 else powLoopU b e 1

/-- The switch of `evalIntExpression` (ConstEvalPass.cpp 181-282): a number or a truth value. -/
def intSwitch (op : BinOp) (l r : BitVec 64) (signed : Bool) : Res (BitVec 64 ⊕ Bool) :=
  match op with
  | .power =>
    if signed then (powerS l.toInt r.toInt).bind fun z => .ok (.inl (BitVec.ofInt 64 z))
    else (powerU l.toNat r.toNat).bind fun z => .ok (.inl (BitVec.ofNat 64 z))
  | .add => .ok (.inl (l + r))
  | .subtract => .ok (.inl (l - r))
  | .multiply =>
    if signed then
      if l.toInt * r.toInt < -2 ^ 63 ∨ 2 ^ 63 ≤ l.toInt * r.toInt then .ub else .ok (.inl (l * r))
    else .ok (.inl (l * r))
  | .divide =>
    if signed then
      if r.toInt = 0 ∨ (l.toInt = -2 ^ 63 ∧ r.toInt = -1) then .ub else .ok (.inl (l.sdiv r))
    else if r.toNat = 0 then .ub else .ok (.inl (l.udiv r))
  | .modulo =>
    if signed then
      if r.toInt = 0 ∨ (l.toInt = -2 ^ 63 ∧ r.toInt = -1) then .ub else .ok (.inl (l.srem r))
    else if r.toNat = 0 then .ub else .ok (.inl (l.umod r))
  | .leftShift =>
    if signed then
      if r.toInt < 0 ∨ 64 ≤ r.toInt ∨ l.toInt < 0 ∨ 2 ^ 64 ≤ l.toInt * 2 ^ r.toInt.toNat then .ub
      else .ok (.inl (l <<< r.toInt.toNat))
    else if 64 ≤ r.toNat then .ub else .ok (.inl (l <<< r.toNat))
  | .rightShift =>
    if signed then
      if r.toInt < 0 ∨ 64 ≤ r.toInt then .ub else .ok (.inl (l.sshiftRight r.toInt.toNat))
    else if 64 ≤ r.toNat then .ub else .ok (.inl (l >>> r.toNat))
  | .lessThan => .ok (.inr (if signed then l.slt r else l.ult r))
  | .lessThanOrEqual => .ok (.inr (if signed then l.sle r else l.ule r))
  | .greaterThan => .ok (.inr (if signed then r.slt l else r.ult l))
  | .greaterThanOrEqual => .ok (.inr (if signed then r.sle l else r.ule l))
  | .equal => .ok (.inr (l == r))
  | .notEqual => .ok (.inr (l != r))
  | .bitwiseAnd => .ok (.inl (l &&& r))
  | .bitwiseXor => .ok (.inl (l ^^^ r))
  | .bitwiseOr => .ok (.inl (l ||| r))
  | .logicalAnd => .throw
  | .logicalOr => .throw

/-- The cast to the width (ConstEvalPass.cpp 166-170, 284-308). -/
def castToWidth (v : BitVec 64) (width : ℕ) : Res (BitVec 64) :=
  if width = 8 ∨ width = 16 ∨ width = 32 ∨ width = 64 then .ok ((v.setWidth width).signExtend 64) else .throw

/-- `evalIntExpression` (ConstEvalPass.cpp 172-314). -/
def evalInt (op : BinOp) (l r : BitVec 64) (width : ℕ) (signed : Bool) : Res (Value F) :=
  (intSwitch op l r signed).bind fun
    | .inl v => (castToWidth v width).bind fun v => .ok (if signed then .int v width else .uint v width)
    | .inr b => .ok (.bool b)

/-- `evalFloatExpression` (ConstEvalPass.cpp 316-369). -/
def evalFloat (f : FloatOps F) (op : BinOp) (l r : F) : Res (Value F) :=
  match op with
  | .power => .ok (.flt (f.pow l r))
  | .add => .ok (.flt (f.add l r))
  | .subtract => .ok (.flt (f.sub l r))
  | .multiply => .ok (.flt (f.mul l r))
  | .divide => .ok (.flt (f.div l r))
  | .modulo => .ok (.flt (f.fmod l r))
  | .lessThan => .ok (.bool (f.lt l r))
  | .lessThanOrEqual => .ok (.bool (f.le l r))
  | .greaterThan => .ok (.bool (f.lt r l))
  | .greaterThanOrEqual => .ok (.bool (f.le r l))
  | .equal => .ok (.bool (f.eq l r))
  | .notEqual => .ok (.bool !(f.eq l r))
  | _ => .throw

/-- `evalBoolExpression` (ConstEvalPass.cpp 371-402). -/
def evalBool (op : BinOp) (l r : Bool) : Res (Value F) :=
  match op with
  | .equal => .ok (.bool (l == r))
  | .notEqual => .ok (.bool (l != r))
  | .bitwiseAnd => .ok (.bool (l && r))
  | .bitwiseXor => .ok (.bool (l != r))
  | .bitwiseOr => .ok (.bool (l || r))
  | .logicalAnd => .ok (.bool (l && r))
  | .logicalOr => .ok (.bool (l || r))
  | _ => .throw

/-- The coercions and the dispatch of `visitBinaryExpression` (ConstEvalPass.cpp 417-467). -/
def evalBinary (f : FloatOps F) (op : BinOp) : Value F → Value F → Res (Value F)
  | .int l wl, .int r wr => evalInt op l r (max wl wr) true
  | .int l wl, .uint r wr => evalInt op l r (max wl wr) true
  | .uint l wl, .int r wr => evalInt op l r (max wl wr) true
  | .uint l wl, .uint r wr => evalInt op l r (max wl wr) false
  | .int l _, .flt r => evalFloat f op (f.ofInt l.toInt) r
  | .uint l _, .flt r => evalFloat f op (f.ofInt l.toInt) r
  | .flt l, .uint r _ => evalFloat f op l (f.ofInt r.toNat)
  | .flt l, .int r _ => evalFloat f op l (f.ofInt r.toInt)
  | .flt l, .flt r => evalFloat f op l r
  | .bool l, .bool r => evalBool op l r
  | _, _ => .throw

/-- The switch of `visitUnaryExpression` (ConstEvalPass.cpp 478-548). -/
def evalUnary (f : FloatOps F) : UnOp → Value F → Res (Option (Value F))
  | .bitwiseNot, .int v w => .ok (some (.int (~~~v) w))
  | .bitwiseNot, .uint v w => .ok (some (.uint (~~~v) w))
  | .bitwiseNot, _ => .ok none
  | .logicalNot, .bool b => .ok (some (.bool !b))
  | .logicalNot, _ => .ok none
  | .negate, .int v w => if v.toInt = -2 ^ 63 then .ub else .ok (some (.int (-v) w))
  | .negate, .flt x => .ok (some (.flt (f.neg x)))
  | .negate, _ => .ok none
  | .durationOf, _ => .ok none
  | u, .flt x => .ok (some (.flt (f.fn u x)))
  | _, _ => .ok none

/-- Expressions (Statement.hpp); `other` are the kinds `visit` gives up on: measurements, indexed identifiers, lists. -/
inductive Expr (F : Type)
  | int (v : BitVec 64)
  | uint (v : BitVec 64)
  | flt (x : F)
  | bool (b : Bool)
  | ident (name : String)
  | other
  | unary (op : UnOp) (e : Expr F)
  | binary (op : BinOp) (l r : Expr F)

/-- `visit` (ConstEvalPass.cpp 405-597): no value means that the expression is not constant. -/
def evalExpr (f : FloatOps F) (env : Env String (Value F)) : Expr F → Res (Option (Value F))
  | .int v => .ok (some (.int v 64))
  | .uint v => .ok (some (.uint v 64))
  | .flt x => .ok (some (.flt x))
  | .bool b => .ok (some (.bool b))
  | .ident name => .ok (env.find name)
  | .other => .ok none
  | .unary op e => (evalExpr f env e).bind fun
    | none => .ok none
    | some v => evalUnary f op v
  | .binary op l r => (evalExpr f env l).bind fun
    | none => .ok none
    | some vl => (evalExpr f env r).bind fun
      | none => .ok none
      | some vr => (evalBinary f op vl vr).bind fun v => .ok (some v)

/-! ### Specification -/

/-- The number represented. -/
def num (signed : Bool) (v : BitVec 64) : ℤ := if signed then v.toInt else v.toNat

/-- What an operator means on integers; `none` if it has no meaning. -/
def meant (op : BinOp) (a b : ℤ) : Option (ℤ ⊕ Bool) :=
  match op with
  | .power => if 0 ≤ b then some (.inl (a ^ b.toNat)) else none
  | .add => some (.inl (a + b))
  | .subtract => some (.inl (a - b))
  | .multiply => some (.inl (a * b))
  | .divide => if b = 0 then none else some (.inl (a.tdiv b))
  | .modulo => if b = 0 then none else some (.inl (a.tmod b))
  | .leftShift => if 0 ≤ b ∧ b < 64 then some (.inl (a * 2 ^ b.toNat)) else none
  | .rightShift => if 0 ≤ b ∧ b < 64 then some (.inl (a / 2 ^ b.toNat)) else none
  | .lessThan => some (.inr (decide (a < b)))
  | .lessThanOrEqual => some (.inr (decide (a ≤ b)))
  | .greaterThan => some (.inr (decide (a > b)))
  | .greaterThanOrEqual => some (.inr (decide (a ≥ b)))
  | .equal => some (.inr (decide (a = b)))
  | .notEqual => some (.inr (decide (a ≠ b)))
  | .bitwiseAnd => some (.inl (Int.land a b))
  | .bitwiseXor => some (.inl (Int.xor a b))
  | .bitwiseOr => some (.inl (Int.lor a b))
  | .logicalAnd => none
  | .logicalOr => none

/-- The largest number of the type. -/
def maxNum (signed : Bool) : ℤ := if signed then 2 ^ 63 - 1 else 2 ^ 64 - 1

/-- The cases with undefined behaviour. -/
def Undefined (op : BinOp) (a b : ℤ) (signed : Bool) : Prop :=
  match op with
  | .power => a = 0 ∧ 0 < b
  | .multiply => signed = true ∧ (a * b < -2 ^ 63 ∨ 2 ^ 63 ≤ a * b)
  | .divide => b = 0 ∨ (signed = true ∧ a = -2 ^ 63 ∧ b = -1)
  | .modulo => b = 0 ∨ (signed = true ∧ a = -2 ^ 63 ∧ b = -1)
  | .leftShift => ¬ (0 ≤ b ∧ b < 64) ∨ (signed = true ∧ (a < 0 ∨ 2 ^ 64 ≤ a * 2 ^ b.toNat))
  | .rightShift => ¬ (0 ≤ b ∧ b < 64)
  | _ => False

/-- The cases with an error. -/
def Error (op : BinOp) (a b : ℤ) (signed : Bool) : Prop :=
  match op with
  | .power => (a < 0 ∧ 0 < b) ∨ (0 < a ∧ 0 < b ∧ maxNum signed < a ^ b.toNat)
  | .logicalAnd => True
  | .logicalOr => True
  | _ => False

/-- The value of an exact result: numbers modulo `2^64`. -/
def represent (signed : Bool) : ℤ ⊕ Bool → Value F
  | .inl z => if signed then .int (BitVec.ofInt 64 z) 64 else .uint (BitVec.ofInt 64 z) 64
  | .inr b => .bool b

/-- A meaning: numbers, not their representation. -/
inductive Meaning (F : Type)
  | int (z : ℤ)
  | uint (n : ℤ)
  | flt (x : F)
  | bool (b : Bool)
  deriving DecidableEq

def Value.meaning : Value F → Meaning F
  | .int v _ => .int v.toInt
  | .uint v _ => .uint v.toNat
  | .flt x => .flt x
  | .bool b => .bool b

/-- A signed result wraps around to `[-2^63, 2^63)`. -/
def wrapS : ℤ ⊕ Bool → Meaning F
  | .inl z => .int (z.bmod (2 ^ 64))
  | .inr b => .bool b

/-- An unsigned result wraps around to `[0, 2^64)`. -/
def wrapU : ℤ ⊕ Bool → Meaning F
  | .inl z => .uint (z % 2 ^ 64)
  | .inr b => .bool b

def meantFloat (f : FloatOps F) (op : BinOp) (l r : F) : Option (Meaning F) :=
  match op with
  | .power => some (.flt (f.pow l r))
  | .add => some (.flt (f.add l r))
  | .subtract => some (.flt (f.sub l r))
  | .multiply => some (.flt (f.mul l r))
  | .divide => some (.flt (f.div l r))
  | .modulo => some (.flt (f.fmod l r))
  | .lessThan => some (.bool (f.lt l r))
  | .lessThanOrEqual => some (.bool (f.le l r))
  | .greaterThan => some (.bool (f.lt r l))
  | .greaterThanOrEqual => some (.bool (f.le r l))
  | .equal => some (.bool (f.eq l r))
  | .notEqual => some (.bool !(f.eq l r))
  | _ => none

def meantBool (op : BinOp) (l r : Bool) : Option (Meaning F) :=
  match op with
  | .equal => some (.bool (decide (l = r)))
  | .notEqual => some (.bool (decide (l ≠ r)))
  | .bitwiseAnd => some (.bool (l && r))
  | .bitwiseXor => some (.bool (xor l r))
  | .bitwiseOr => some (.bool (l || r))
  | .logicalAnd => some (.bool (l && r))
  | .logicalOr => some (.bool (l || r))
  | _ => none

/-- Two integers of different signedness are taken as signed ones, an integer and a float as floats. -/
def meantBinary (f : FloatOps F) (op : BinOp) : Meaning F → Meaning F → Option (Meaning F)
  | .int a, .int b => (meant op a b).map wrapS
  | .int a, .uint b => (meant op a (b.bmod (2 ^ 64))).map wrapS
  | .uint a, .int b => (meant op (a.bmod (2 ^ 64)) b).map wrapS
  | .uint a, .uint b => (meant op a b).map wrapU
  | .int a, .flt y => meantFloat f op (f.ofInt a) y
  | .uint a, .flt y => meantFloat f op (f.ofInt a) y
  | .flt x, .int b => meantFloat f op x (f.ofInt b)
  | .flt x, .uint b => meantFloat f op x (f.ofInt b)
  | .flt x, .flt y => meantFloat f op x y
  | .bool a, .bool b => meantBool op a b
  | _, _ => none

def meantUnary (f : FloatOps F) : UnOp → Meaning F → Option (Meaning F)
  | .bitwiseNot, .int z => some (.int (-z - 1))
  | .bitwiseNot, .uint n => some (.uint (2 ^ 64 - 1 - n))
  | .logicalNot, .bool b => some (.bool !b)
  | .negate, .int z => some (.int ((-z).bmod (2 ^ 64)))
  | .negate, .flt x => some (.flt (f.neg x))
  | .sin, .flt x => some (.flt (f.fn .sin x))
  | .cos, .flt x => some (.flt (f.fn .cos x))
  | .tan, .flt x => some (.flt (f.fn .tan x))
  | .exp, .flt x => some (.flt (f.fn .exp x))
  | .ln, .flt x => some (.flt (f.fn .ln x))
  | .sqrt, .flt x => some (.flt (f.fn .sqrt x))
  | _, _ => none

/-- The meaning of an expression; `none` if it is not constant or has none. -/
def Expr.meaning (f : FloatOps F) (ρ : String → Option (Meaning F)) : Expr F → Option (Meaning F)
  | .int v => some (.int v.toInt)
  | .uint v => some (.uint v.toNat)
  | .flt x => some (.flt x)
  | .bool b => some (.bool b)
  | .ident name => ρ name
  | .other => none
  | .unary op e => (e.meaning f ρ).bind (meantUnary f op)
  | .binary op l r => (l.meaning f ρ).bind fun a => (r.meaning f ρ).bind fun b => meantBinary f op a b

/-- All integers have 64 bits.  (Nothing else arises from a program.) -/
def Value.Wide : Value F → Prop
  | .int _ w => w = 64
  | .uint _ w => w = 64
  | _ => True

/-- The operations whose result is wrong: a signed power with a negative exponent, and a large unsigned left operand
with a float. -/
def OddOp (op : BinOp) : Value F → Value F → Prop
  | .int _ _, .int b _ => op = .power ∧ b.toInt < 0
  | .int _ _, .uint b _ => op = .power ∧ b.toInt < 0
  | .uint _ _, .int b _ => op = .power ∧ b.toInt < 0
  | .uint a _, .flt _ => 2 ^ 63 ≤ a.toNat
  | _, _ => False

/-- Such an operation occurs in the evaluation of the expression. -/
def Odd (f : FloatOps F) (env : Env String (Value F)) : Expr F → Prop
  | .unary _ e => Odd f env e
  | .binary op l r => Odd f env l ∨ Odd f env r ∨
    ∃ a b, evalExpr f env l = .ok (some a) ∧ evalExpr f env r = .ok (some b) ∧ OddOp op a b
  | _ => False


/-! ### Lemmas -/

theorem powLoopS_pos {b : ℤ} (hb : 0 < b) : ∀ (k : ℕ) (r : ℤ), 0 < r → r ≤ 2 ^ 63 - 1 →
    powLoopS b k r = if 2 ^ 63 - 1 < r * b ^ k then .throw else .ok (r * b ^ k) := by
  intro k
  induction k with
  | zero => intro r _ hr; simp only [powLoopS, pow_zero, mul_one]; rw [if_neg (by omega)]
  | succ k ih =>
    intro r h0 hr
    simp only [powLoopS]
    rw [if_neg hb.ne', Int.tdiv_eq_ediv_of_nonneg (by norm_num)]
    have hle : r ≤ (2 ^ 63 - 1) / b ↔ r * b ≤ 2 ^ 63 - 1 := Int.le_ediv_iff_mul_le hb
    have hp : 1 ≤ b ^ k := one_le_pow₀ hb
    by_cases h : r * b ≤ 2 ^ 63 - 1
    · have hrb : 0 < r * b := mul_pos h0 hb
      rw [if_neg (not_lt.2 (hle.2 h)), if_neg (by omega), ih _ hrb h, mul_assoc, ← pow_succ']
    · rw [if_pos (lt_of_not_ge fun h' => h (hle.1 h')), if_pos]
      rw [pow_succ' b, ← mul_assoc]
      nlinarith

theorem powerS_eq (b e : ℤ) : powerS b e =
    if b = 0 ∧ 0 < e then .ub
    else if (b < 0 ∧ 0 < e) ∨ (0 < b ∧ 0 < e ∧ 2 ^ 63 - 1 < b ^ e.toNat) then .throw
    else if 0 ≤ e then .ok (b ^ e.toNat) else .ok 1 := by
  unfold powerS
  rcases lt_trichotomy e 0 with he | he | he
  · rw [if_neg he.ne, if_neg (by omega), if_neg (by omega), if_neg (by omega)]
    rw [Int.toNat_of_nonpos he.le]
    rfl
  · subst he
    simp
  · rw [if_neg he.ne']
    obtain ⟨k, hk⟩ : ∃ k, e.toNat = k + 1 := ⟨e.toNat - 1, by omega⟩
    rw [if_pos he.le]
    rcases lt_trichotomy b 0 with hb | hb | hb
    · rw [if_neg (by omega), if_pos (Or.inl ⟨hb, he⟩), hk]
      simp only [powLoopS]
      rw [if_neg hb.ne, if_pos]
      have : (2 ^ 63 - 1 : ℤ).tdiv b ≤ 0 := Int.tdiv_nonpos_of_nonneg_of_nonpos (by norm_num) hb.le
      omega
    · subst hb
      rw [if_pos ⟨rfl, he⟩, hk]
      simp [powLoopS]
    · rw [if_neg (by omega), powLoopS_pos hb _ _ one_pos (by norm_num), one_mul]
      exact if_congr (by constructor <;> [exact fun h => Or.inr ⟨hb, he, h⟩; rintro (⟨h, -⟩ | ⟨-, -, h⟩) <;> [omega; exact h]]) rfl rfl

theorem powLoopU_pos {b : ℕ} (hb : 0 < b) : ∀ (k r : ℕ), 0 < r → r ≤ 2 ^ 64 - 1 →
    powLoopU b k r = if 2 ^ 64 - 1 < r * b ^ k then .throw else .ok (r * b ^ k) := by
  intro k
  induction k with
  | zero => intro r _ hr; simp only [powLoopU, pow_zero, mul_one]; rw [if_neg (by omega)]
  | succ k ih =>
    intro r h0 hr
    simp only [powLoopU]
    rw [if_neg hb.ne']
    have hle : r ≤ (2 ^ 64 - 1) / b ↔ r * b ≤ 2 ^ 64 - 1 := Nat.le_div_iff_mul_le hb
    have hp : 1 ≤ b ^ k := Nat.one_le_pow _ _ hb
    by_cases h : r * b ≤ 2 ^ 64 - 1
    · have hrb : 0 < r * b := Nat.mul_pos h0 hb
      rw [if_neg (not_lt.2 (hle.2 h)), Nat.mod_eq_of_lt (by omega), ih _ hrb h, mul_assoc, ← pow_succ']
    · rw [if_pos (lt_of_not_ge fun h' => h (hle.1 h')), if_pos]
      rw [pow_succ' b, ← mul_assoc]
      exact lt_of_lt_of_le (not_le.1 h) (Nat.le_mul_of_pos_right _ hp)

theorem powerU_eq (b e : ℕ) : powerU b e =
    if b = 0 ∧ 0 < e then .ub else if 2 ^ 64 - 1 < b ^ e ∧ 0 < b then .throw else .ok (b ^ e) := by
  unfold powerU
  rcases Nat.eq_zero_or_pos e with rfl | he
  · simp
  · rw [if_neg he.ne']
    rcases Nat.eq_zero_or_pos b with rfl | hb
    · obtain ⟨k, rfl⟩ : ∃ k, e = k + 1 := ⟨e - 1, by omega⟩
      simp [powLoopU]
    · rw [if_neg (by omega), powLoopU_pos hb _ _ one_pos (by norm_num), one_mul]
      exact if_congr (by simp [hb]) rfl rfl

theorem num_lt (s : Bool) (v : BitVec 64) : -2 ^ 63 ≤ num s v ∧ num s v < 2 ^ 64 ∧ (s = true → num s v < 2 ^ 63) ∧
    (s = false → 0 ≤ num s v) := by
  have h1 := v.toInt_lt
  have h2 := v.le_toInt
  have h3 := v.isLt
  unfold num
  cases s
  · simp; omega
  · simp_all; omega

theorem ofInt_num (s : Bool) (v : BitVec 64) : BitVec.ofInt 64 (num s v) = v := by
  unfold num
  cases s
  · simp
  · simp

theorem getLsbD_ofInt (z : ℤ) (i : ℕ) (hi : i < 64) : (BitVec.ofInt 64 z).getLsbD i = z.testBit i := by
  cases z with
  | ofNat n =>
    rw [Int.ofNat_eq_natCast, BitVec.ofInt_natCast, BitVec.getLsbD_ofNat]
    simp [hi, Int.testBit]
  | negSucc n =>
    rw [BitVec.ofInt_negSucc_eq_not_ofNat, BitVec.getLsbD_not, BitVec.getLsbD_ofNat]
    simp [hi, Int.testBit]

theorem ofInt_land (a b : ℤ) : BitVec.ofInt 64 (Int.land a b) = BitVec.ofInt 64 a &&& BitVec.ofInt 64 b := by
  apply BitVec.eq_of_getLsbD_eq
  intro i hi
  rw [getLsbD_ofInt _ _ hi, Int.testBit_land, BitVec.getLsbD_and, getLsbD_ofInt _ _ hi, getLsbD_ofInt _ _ hi]

theorem ofInt_lor (a b : ℤ) : BitVec.ofInt 64 (Int.lor a b) = BitVec.ofInt 64 a ||| BitVec.ofInt 64 b := by
  apply BitVec.eq_of_getLsbD_eq
  intro i hi
  rw [getLsbD_ofInt _ _ hi, Int.testBit_lor, BitVec.getLsbD_or, getLsbD_ofInt _ _ hi, getLsbD_ofInt _ _ hi]

theorem ofInt_xor (a b : ℤ) : BitVec.ofInt 64 (Int.xor a b) = BitVec.ofInt 64 a ^^^ BitVec.ofInt 64 b := by
  apply BitVec.eq_of_getLsbD_eq
  intro i hi
  rw [getLsbD_ofInt _ _ hi, Int.testBit_lxor, BitVec.getLsbD_xor, getLsbD_ofInt _ _ hi, getLsbD_ofInt _ _ hi]

theorem ofInt_sub (a b : ℤ) : BitVec.ofInt 64 (a - b) = BitVec.ofInt 64 a - BitVec.ofInt 64 b := by
  rw [sub_eq_add_neg, BitVec.ofInt_add, BitVec.ofInt_neg, BitVec.sub_eq_add_neg]

/-- The switch, case by case. -/
theorem intSwitch_eq (op : BinOp) (l r : BitVec 64) (s : Bool) :
    (Undefined op (num s l) (num s r) s → intSwitch op l r s = .ub) ∧
    (Error op (num s l) (num s r) s → intSwitch op l r s = .throw) ∧
    (¬ Undefined op (num s l) (num s r) s → ¬ Error op (num s l) (num s r) s →
      (∀ x, meant op (num s l) (num s r) = some x → intSwitch op l r s = .ok (x.map (BitVec.ofInt 64) id)) ∧
      (meant op (num s l) (num s r) = none → op = .power ∧ intSwitch op l r s = .ok (.inl 1))) := by
  cases op
  case power =>
    simp only [Undefined, Error, meant, intSwitch]
    cases s
    · simp only [num, maxNum, Bool.false_eq_true, if_false, powerU_eq]
      have e1 : ((l.toNat : ℤ) = 0 ∧ 0 < (r.toNat : ℤ)) ↔ (l.toNat = 0 ∧ 0 < r.toNat) := by omega
      have hc : ((2 : ℤ) ^ 64 - 1 < (l.toNat : ℤ) ^ r.toNat) ↔ 2 ^ 64 - 1 < l.toNat ^ r.toNat := by
        rw [← Nat.cast_pow]; omega
      refine ⟨fun h => ?_, fun h => ?_, fun h1 h2 => ⟨?_, fun h => ?_⟩⟩
      · rw [if_pos (e1.1 h)]; rfl
      · rcases h with h | ⟨h, h', h''⟩
        · omega
        · rw [Int.toNat_natCast, hc] at h''
          rw [if_neg (by omega), if_pos ⟨h'', by omega⟩]; rfl
      · intro x hx
        rw [if_pos (by omega)] at hx
        obtain rfl := Option.some.inj hx
        rw [if_neg (fun h => h1 (e1.2 h)), if_neg]
        · rw [Int.toNat_natCast]
          simp only [Res.bind, Sum.map_inl]
          rw [← Nat.cast_pow, BitVec.ofInt_natCast]
        · rintro ⟨h, h'⟩
          rcases Nat.eq_zero_or_pos r.toNat with h0 | h0
          · rw [h0] at h; norm_num at h
          · exact h2 (Or.inr ⟨by omega, by omega, by rw [Int.toNat_natCast, hc]; exact h⟩)
      · rw [if_pos (by omega)] at h
        cases h
    · simp only [num, maxNum, if_true, powerS_eq]
      refine ⟨fun h => ?_, fun h => ?_, fun h1 h2 => ⟨?_, fun h => ⟨trivial, ?_⟩⟩⟩
      · rw [if_pos h]; rfl
      · rw [if_neg (by omega), if_pos h]; rfl
      · intro x hx
        rw [if_neg h1, if_neg h2]
        by_cases h0 : 0 ≤ r.toInt
        · rw [if_pos h0] at hx ⊢
          obtain rfl := Option.some.inj hx
          rfl
        · rw [if_neg h0] at hx; cases hx
      · rw [if_neg h1, if_neg h2]
        by_cases h0 : 0 ≤ r.toInt
        · rw [if_pos h0] at h; cases h
        · rw [if_neg h0]; rfl
  case add => simp [Undefined, Error, meant, intSwitch, BitVec.ofInt_add, ofInt_num]
  case subtract => simp [Undefined, Error, meant, intSwitch, ofInt_sub, ofInt_num]
  case multiply =>
    simp only [Undefined, Error, meant, intSwitch]
    cases s
    · simp [BitVec.ofInt_mul, ofInt_num]
    · simp only [true_and, if_true, not_or, num]
      refine ⟨fun h => if_pos h, False.elim, fun h _ => ⟨?_, by simp⟩⟩
      rintro x ⟨⟩
      rw [if_neg (by tauto)]
      simp [BitVec.ofInt_mul]
  case divide =>
    simp only [Undefined, Error, meant, intSwitch]
    cases s
    · simp only [num, Bool.false_eq_true, if_false, false_and, or_false]
      refine ⟨fun h => if_pos (by omega), False.elim, fun h _ => ⟨?_, fun h' => ?_⟩⟩
      · rintro x hx
        rw [if_neg h] at hx
        obtain rfl := Option.some.inj hx
        rw [if_neg (by omega)]
        simp only [Sum.map_inl, Res.ok.injEq, Sum.inl.injEq]
        rw [Int.tdiv_eq_ediv_of_nonneg (by omega), ← Int.natCast_ediv, BitVec.ofInt_natCast]
        apply BitVec.eq_of_toNat_eq
        have := Nat.div_le_self l.toNat r.toNat
        have := l.isLt
        simp [Nat.mod_eq_of_lt (by omega : l.toNat / r.toNat < 18446744073709551616)]
      · rw [if_neg h] at h'; cases h'
    · simp only [num, true_and, if_true]
      refine ⟨fun h => if_pos h, False.elim, fun h _ => ⟨?_, fun h' => ?_⟩⟩
      · rintro x hx
        rw [if_neg (by tauto)] at hx
        obtain rfl := Option.some.inj hx
        rw [if_neg h]
        simp only [Sum.map_inl, Res.ok.injEq, Sum.inl.injEq]
        apply BitVec.eq_of_toInt_eq
        rw [BitVec.toInt_sdiv, BitVec.toInt_ofInt]
      · rw [if_neg (by tauto)] at h'; cases h'
  case modulo =>
    simp only [Undefined, Error, meant, intSwitch]
    cases s
    · simp only [num, Bool.false_eq_true, if_false, false_and, or_false]
      refine ⟨fun h => if_pos (by omega), False.elim, fun h _ => ⟨?_, fun h' => ?_⟩⟩
      · rintro x hx
        rw [if_neg h] at hx
        obtain rfl := Option.some.inj hx
        rw [if_neg (by omega)]
        simp only [Sum.map_inl, Res.ok.injEq, Sum.inl.injEq]
        rw [Int.tmod_eq_emod_of_nonneg (by omega), ← Int.natCast_emod, BitVec.ofInt_natCast]
        apply BitVec.eq_of_toNat_eq
        have := Nat.mod_le l.toNat r.toNat
        have := l.isLt
        simp [Nat.mod_eq_of_lt (by omega : l.toNat % r.toNat < 18446744073709551616)]
      · rw [if_neg h] at h'; cases h'
    · simp only [num, true_and, if_true]
      refine ⟨fun h => if_pos h, False.elim, fun h _ => ⟨?_, fun h' => ?_⟩⟩
      · rintro x hx
        rw [if_neg (by tauto)] at hx
        obtain rfl := Option.some.inj hx
        rw [if_neg h]
        simp only [Sum.map_inl, Res.ok.injEq, Sum.inl.injEq]
        apply BitVec.eq_of_toInt_eq
        rw [BitVec.toInt_srem, BitVec.toInt_ofInt, ← BitVec.toInt_srem, BitVec.toInt_bmod_cancel]
      · rw [if_neg (by tauto)] at h'; cases h'
  case leftShift =>
    simp only [Undefined, Error, meant, intSwitch]
    have key : ∀ (v : BitVec 64) (k : ℕ) (z : ℤ), BitVec.ofInt 64 z = v → BitVec.ofInt 64 (z * 2 ^ k) = v <<< k := by
      rintro v k z rfl
      rw [BitVec.ofInt_mul, BitVec.shiftLeft_eq_mul_twoPow]
      congr 1
      rw [show (2 : ℤ) ^ k = ((2 ^ k : ℕ) : ℤ) by push_cast; rfl, BitVec.ofInt_natCast]
      apply BitVec.eq_of_toNat_eq
      simp [BitVec.toNat_twoPow]
    cases s
    · simp only [num, Bool.false_eq_true, if_false, false_and, or_false, not_not]
      refine ⟨fun h => if_pos (by omega), False.elim, fun h _ => ⟨?_, fun h' => ?_⟩⟩
      · rintro x hx
        rw [if_pos h] at hx
        obtain rfl := Option.some.inj hx
        rw [if_neg (by omega)]
        simp only [Sum.map_inl, Res.ok.injEq, Sum.inl.injEq, Int.toNat_natCast]
        exact (key l _ _ (by simp)).symm
      · rw [if_pos h] at h'; cases h'
    · simp only [num, true_and, if_true]
      refine ⟨fun h => if_pos (by omega), False.elim, fun h _ => ⟨?_, fun h' => ?_⟩⟩
      · rintro x hx
        rw [if_pos (by omega)] at hx
        obtain rfl := Option.some.inj hx
        rw [if_neg (by omega)]
        simp only [Sum.map_inl, Res.ok.injEq, Sum.inl.injEq]
        exact (key l _ _ (by simp)).symm
      · rw [if_pos (by omega)] at h'; cases h'
  case rightShift =>
    simp only [Undefined, Error, meant, intSwitch]
    cases s
    · simp only [num, Bool.false_eq_true, if_false, not_not]
      refine ⟨fun h => if_pos (by omega), False.elim, fun h _ => ⟨?_, fun h' => ?_⟩⟩
      · rintro x hx
        rw [if_pos h] at hx
        obtain rfl := Option.some.inj hx
        rw [if_neg (by omega)]
        simp only [Sum.map_inl, Res.ok.injEq, Sum.inl.injEq, Int.toNat_natCast]
        rw [show (l.toNat : ℤ) / 2 ^ r.toNat = ((l.toNat / 2 ^ r.toNat : ℕ) : ℤ) by push_cast; rfl, BitVec.ofInt_natCast]
        apply BitVec.eq_of_toNat_eq
        have := Nat.div_le_self l.toNat (2 ^ r.toNat)
        have := l.isLt
        simp [Nat.shiftRight_eq_div_pow, Nat.mod_eq_of_lt (by omega : l.toNat / 2 ^ r.toNat < 18446744073709551616)]
      · rw [if_pos h] at h'; cases h'
    · simp only [num, if_true, not_not]
      refine ⟨fun h => if_pos (by omega), False.elim, fun h _ => ⟨?_, fun h' => ?_⟩⟩
      · rintro x hx
        rw [if_pos h] at hx
        obtain rfl := Option.some.inj hx
        rw [if_neg (by omega)]
        simp only [Sum.map_inl, Res.ok.injEq, Sum.inl.injEq]
        rw [← Nat.cast_ofNat (n := 2), ← Nat.cast_pow, ← Int.shiftRight_eq_div_pow, ← BitVec.toInt_sshiftRight, BitVec.ofInt_toInt]
      · rw [if_pos h] at h'; cases h'
  case lessThan =>
    simp only [Undefined, Error, meant, intSwitch]
    cases s <;> simp [num, BitVec.slt, BitVec.ult]
  case lessThanOrEqual =>
    simp only [Undefined, Error, meant, intSwitch]
    cases s <;> simp [num, BitVec.sle, BitVec.ule]
  case greaterThan =>
    simp only [Undefined, Error, meant, intSwitch]
    cases s <;> simp [num, BitVec.slt, BitVec.ult]
  case greaterThanOrEqual =>
    simp only [Undefined, Error, meant, intSwitch]
    cases s <;> simp [num, BitVec.sle, BitVec.ule]
  case equal =>
    simp only [Undefined, Error, meant, intSwitch]
    cases s <;> simp [num, BitVec.toInt_inj, BitVec.toNat_inj, BEq.beq]
  case notEqual =>
    simp only [Undefined, Error, meant, intSwitch]
    cases s <;> simp [num, BitVec.toInt_inj, BitVec.toNat_inj, bne, BEq.beq]
  case bitwiseAnd => simp [Undefined, Error, meant, intSwitch, ofInt_land, ofInt_num]
  case bitwiseXor => simp [Undefined, Error, meant, intSwitch, ofInt_xor, ofInt_num]
  case bitwiseOr => simp [Undefined, Error, meant, intSwitch, ofInt_lor, ofInt_num]
  case logicalAnd => simp [Undefined, Error, meant, intSwitch]
  case logicalOr => simp [Undefined, Error, meant, intSwitch]

theorem castToWidth_eq (z : ℤ) {w : ℕ} (hw : w = 8 ∨ w = 16 ∨ w = 32 ∨ w = 64) :
    ∃ v, castToWidth (BitVec.ofInt 64 z) w = .ok v ∧ v.toInt = z.bmod (2 ^ w) := by
  refine ⟨_, if_pos hw, ?_⟩
  have hle : w ≤ 64 := by omega
  rw [BitVec.toInt_signExtend_of_le hle, BitVec.toInt_setWidth]
  rw [BitVec.toNat_ofInt]
  rw [Int.toNat_of_nonneg (Int.emod_nonneg _ (by positivity))]
  rw [Int.bmod_def, Int.bmod_def]
  rw [Int.emod_emod_of_dvd]
  push_cast
  exact pow_dvd_pow 2 hle

theorem castToWidth_64 (v : BitVec 64) : castToWidth v 64 = .ok v := by
  unfold castToWidth
  rw [if_pos (by decide)]
  simp

theorem evalInt_ok {op : BinOp} {l r : BitVec 64} {s : Bool} (hu : ¬ Undefined op (num s l) (num s r) s)
    (he : ¬ Error op (num s l) (num s r) s) {x : ℤ ⊕ Bool} (hx : meant op (num s l) (num s r) = some x) :
    evalInt op l r 64 s = .ok (represent (F := F) s x) := by
  unfold evalInt
  rw [((intSwitch_eq op l r s).2.2 hu he).1 x hx]
  cases x with
  | inl z => simp [Res.bind, castToWidth_64, represent]
  | inr b => simp [Res.bind, represent]

theorem evalInt_ub {op : BinOp} {l r : BitVec 64} {s : Bool} {w : ℕ} (hu : Undefined op (num s l) (num s r) s) :
    evalInt (F := F) op l r w s = .ub := by
  unfold evalInt
  rw [(intSwitch_eq op l r s).1 hu]
  rfl

theorem evalInt_throw {op : BinOp} {l r : BitVec 64} {s : Bool} {w : ℕ} (hu : Error op (num s l) (num s r) s) :
    evalInt (F := F) op l r w s = .throw := by
  unfold evalInt
  rw [(intSwitch_eq op l r s).2.1 hu]
  rfl

theorem meant_none {op : BinOp} {a b : ℤ} {s : Bool} (h : meant op a b = none) (hu : ¬ Undefined op a b s) (he : ¬ Error op a b s) :
    op = .power ∧ b < 0 := by
  cases op <;> simp_all [meant, Undefined, Error]

theorem represent_meaning (s : Bool) (x : ℤ ⊕ Bool) :
    (represent (F := F) s x).meaning = (if s then wrapS x else wrapU x) ∧ (represent (F := F) s x).Wide := by
  cases x with
  | inl z =>
    cases s
    · refine ⟨?_, rfl⟩
      simp only [represent, Value.meaning, wrapU, Bool.false_eq_true, if_false, Meaning.uint.injEq]
      rw [BitVec.toNat_ofInt, Int.toNat_of_nonneg (Int.emod_nonneg _ (by positivity))]
      norm_num
    · refine ⟨?_, rfl⟩
      simp only [represent, Value.meaning, wrapS, if_true, Meaning.int.injEq]
      rw [BitVec.toInt_ofInt]
  | inr b => cases s <;> exact ⟨rfl, trivial⟩

/-- A value computed is the meaning. -/
theorem evalInt_meaning {op : BinOp} {l r : BitVec 64} {s : Bool} {v : Value F} (h : evalInt op l r 64 s = .ok v)
    (hp : ¬ (op = .power ∧ num s r < 0)) :
    (meant op (num s l) (num s r)).map (if s then wrapS else wrapU) = some v.meaning ∧ v.Wide := by
  have hu : ¬ Undefined op (num s l) (num s r) s := fun hu => by rw [evalInt_ub hu] at h; cases h
  have he : ¬ Error op (num s l) (num s r) s := fun he => by rw [evalInt_throw he] at h; cases h
  cases hm : meant op (num s l) (num s r) with
  | none => exact absurd (meant_none hm hu he) hp
  | some x =>
    rw [evalInt_ok hu he hm] at h
    cases h
    have := represent_meaning (F := F) s x
    refine ⟨?_, this.2⟩
    rw [this.1]
    cases s <;> rfl

theorem evalFloat_meaning {f : FloatOps F} {op : BinOp} {l r : F} {v : Value F} (h : evalFloat f op l r = .ok v) :
    meantFloat f op l r = some v.meaning ∧ v.Wide := by
  cases op <;> cases h <;> exact ⟨rfl, trivial⟩

theorem evalBool_meaning {op : BinOp} {l r : Bool} {v : Value F} (h : evalBool op l r = .ok v) :
    meantBool op l r = some v.meaning ∧ v.Wide := by
  cases op <;> cases h <;> cases l <;> cases r <;> exact ⟨rfl, trivial⟩

theorem toInt_bmod (v : BitVec 64) : (v.toNat : ℤ).bmod (2 ^ 64) = v.toInt := (BitVec.toInt_eq_toNat_bmod v).symm

theorem evalBinary_meaning {f : FloatOps F} {op : BinOp} {a b v : Value F} (ha : a.Wide) (hb : b.Wide)
    (h : evalBinary f op a b = .ok v) (ho : ¬ OddOp op a b) :
    meantBinary f op a.meaning b.meaning = some v.meaning ∧ v.Wide := by
  cases a <;> cases b
  case int.int l wl r wr =>
    cases ha; cases hb
    exact evalInt_meaning (s := true) h ho
  case int.uint l wl r wr =>
    cases ha; cases hb
    simp only [Value.meaning, meantBinary, toInt_bmod]
    exact evalInt_meaning (s := true) h ho
  case uint.int l wl r wr =>
    cases ha; cases hb
    simp only [Value.meaning, meantBinary, toInt_bmod]
    exact evalInt_meaning (s := true) h ho
  case uint.uint l wl r wr =>
    cases ha; cases hb
    exact evalInt_meaning (s := false) h (by simp [num])
  case uint.flt l wl r =>
    simp only [OddOp, not_le] at ho
    have e : (l.toNat : ℤ) = l.toInt := (BitVec.toInt_eq_toNat_of_lt (by omega)).symm
    simp only [Value.meaning, meantBinary, e]
    exact evalFloat_meaning h
  case bool.bool => exact evalBool_meaning h
  all_goals first | exact evalFloat_meaning h | (cases h)

theorem evalUnary_meaning {f : FloatOps F} {op : UnOp} {a v : Value F} (ha : a.Wide) (h : evalUnary f op a = .ok (some v)) :
    meantUnary f op a.meaning = some v.meaning ∧ v.Wide := by
  cases op
  case bitwiseNot =>
    cases a with
    | int x w =>
      cases h
      refine ⟨?_, ha⟩
      have h1 := x.toInt_lt
      have h2 := x.le_toInt
      simp only [Value.meaning, meantUnary, Option.some.injEq, Meaning.int.injEq, BitVec.toInt_not]
      rw [Int.bmod_def]
      rw [BitVec.toInt_eq_toNat_cond] at *
      split_ifs <;> omega
    | uint x w =>
      cases h
      refine ⟨?_, ha⟩
      have := x.isLt
      simp only [Value.meaning, meantUnary, Option.some.injEq, Meaning.uint.injEq, BitVec.toNat_not]
      omega
    | flt x => cases h
    | bool b => cases h
  case negate =>
    cases a with
    | int x w =>
      simp only [evalUnary] at h
      by_cases hx : x.toInt = -2 ^ 63
      · rw [if_pos hx] at h; cases h
      · rw [if_neg hx] at h
        cases h
        refine ⟨?_, ha⟩
        simp only [Value.meaning, meantUnary, BitVec.toInt_neg]
    | uint x w => cases h
    | flt x => cases h; exact ⟨rfl, trivial⟩
    | bool b => cases h
  all_goals cases a <;> cases h <;> exact ⟨rfl, trivial⟩

theorem evalExpr_meaning (f : FloatOps F) {env : Env String (Value F)} (henv : ∀ name v, env.find name = some v → v.Wide) :
    ∀ (e : Expr F) (v : Value F), evalExpr f env e = .ok (some v) → ¬ Odd f env e →
      e.meaning f (fun name => (env.find name).map Value.meaning) = some v.meaning ∧ v.Wide := by
  intro e
  induction e with
  | int x => intro v h _; cases h; exact ⟨rfl, rfl⟩
  | uint x => intro v h _; cases h; exact ⟨rfl, rfl⟩
  | flt x => intro v h _; cases h; exact ⟨rfl, trivial⟩
  | bool x => intro v h _; cases h; exact ⟨rfl, trivial⟩
  | ident name =>
    intro v h _
    simp only [evalExpr, Res.ok.injEq] at h
    exact ⟨by simp only [Expr.meaning, h]; rfl, henv _ _ h⟩
  | other => intro v h; cases h
  | unary op e ih =>
    intro v h ho
    simp only [evalExpr] at h
    cases he : evalExpr f env e with
    | ub => rw [he] at h; cases h
    | throw => rw [he] at h; cases h
    | ok x =>
      rw [he] at h
      cases x with
      | none => cases h
      | some a =>
        obtain ⟨h1, h2⟩ := ih a he ho
        simp only [Expr.meaning, h1, Option.bind_some]
        exact evalUnary_meaning h2 h
  | binary op l r ihl ihr =>
    intro v h ho
    simp only [Odd, not_or, not_exists, not_and] at ho
    simp only [evalExpr] at h
    cases hl : evalExpr f env l with
    | ub => rw [hl] at h; cases h
    | throw => rw [hl] at h; cases h
    | ok x =>
      rw [hl] at h
      cases x with
      | none => cases h
      | some a =>
        cases hr : evalExpr f env r with
        | ub => rw [hr] at h; cases h
        | throw => rw [hr] at h; cases h
        | ok y =>
          rw [hr] at h
          cases y with
          | none => cases h
          | some b =>
            obtain ⟨h1, h2⟩ := ihl a hl ho.1
            obtain ⟨h3, h4⟩ := ihr b hr ho.2.1
            simp only [Expr.meaning, h1, h3, Option.bind_some]
            cases hv : evalBinary f op a b with
            | ub => simp only [Res.bind, hv] at h; cases h
            | throw => simp only [Res.bind, hv] at h; cases h
            | ok c =>
              simp only [Res.bind, hv, Res.ok.injEq, Option.some.injEq] at h
              subst h
              exact evalBinary_meaning h2 h4 hv (ho.2.2 a b hl hr)

end MQT.QASM
