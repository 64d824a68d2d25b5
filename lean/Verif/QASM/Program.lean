/-
The parser of OpenQASM programs (src/qasm3/Parser.cpp).

The tokens of the included files and of the program are one list, with an included file in front of what is left of the
including one, and the end of the list is the end of the program; so `peek` at the last token of an included file is the
token after the `include` statement here, and the end of the file in the code.  The standard gates included implicitly are
left out; they come first and are always the same.  An expression is one of Verif/QASM/Parse.lean: an index after an
identifier is not read inside of an expression.  The text of a layout comment is kept; Verif/QASM/LayoutHeader.lean has
`parsePermutation`.  Debug information is left out.  A parsing function returns `none` for an error, or if the bound on the
recursion is reached.
-/
import Verif.QASM.Parse
import Verif.QASM.Scanner

set_option autoImplicit false

namespace MQT.QASM.Program

open MQT.QASM.Parse (BOp Fn Ex Cmp)

/-! ### Model: tokens -/

inductive Lit
  | num (n : Scanner.Num)
  | bool (b : Bool)
  deriving DecidableEq

inductive Atom
  | name (s : String)
  | lit (l : Lit)
  deriving DecidableEq

/-- Expressions. -/
abbrev E := Ex Atom

/-- `AssignmentStatement::Type`. -/
inductive Asg
  | set | add | sub | mul | div | and | or | not | xor | shl | shr | mod | pow
  deriving DecidableEq

/-- The keywords a declaration starts with. -/
inductive TyKw
  | creg | qreg | int | uint | bit | qubit | float | angle | bool | duration
  deriving DecidableEq

/-- The other keywords of the parser. -/
inductive Kw
  | openqasm | incl | const | gate | opaq | cond | els | measure | reset | barrier | inv | pow | ctrl | negctrl | gphase
  deriving DecidableEq

/-- The tokens by their kind; `other` are those the parser has no use for. -/
inductive Tk
  | ident (s : String)
  | lit (l : Lit)
  | bop (o : BOp)
  | bang
  | tilde
  | fn (f : Fn)
  | lpar | rpar | lbr | rbr | lbrace | rbrace | semi | comma | at | arrow
  | asg (o : Asg)
  | ty (k : TyKw)
  | kw (k : Kw)
  | hw (v : ℤ)
  | str (s : String)
  | layout (s : List Char)
  | outputs (s : List Char)
  | other (t : Scanner.Tok)
  deriving DecidableEq

/-- The kinds by the texts of the keywords (Scanner.cpp 347-406). -/
def keywordKinds : List (String × Tk) :=
  [("OPENQASM", .kw .openqasm), ("include", .kw .incl), ("const", .kw .const), ("gate", .kw .gate), ("opaque", .kw .opaq),
   ("if", .kw .cond), ("else", .kw .els), ("measure", .kw .measure), ("reset", .kw .reset), ("barrier", .kw .barrier),
   ("inv", .kw .inv), ("pow", .kw .pow), ("ctrl", .kw .ctrl), ("negctrl", .kw .negctrl), ("gphase", .kw .gphase),
   ("creg", .ty .creg), ("qreg", .ty .qreg), ("int", .ty .int), ("uint", .ty .uint), ("bit", .ty .bit), ("qubit", .ty .qubit),
   ("float", .ty .float), ("angle", .ty .angle), ("bool", .ty .bool), ("duration", .ty .duration),
   ("true", .lit (.bool true)), ("false", .lit (.bool false)),
   ("sin", .fn .sin), ("cos", .fn .cos), ("tan", .fn .tan), ("exp", .fn .exp), ("ln", .fn .ln), ("sqrt", .fn .sqrt)]

/-- The kinds by the texts of the symbols (Scanner.cpp 432-647). -/
def symbolKinds : List (String × Tk) :=
  [("(", .lpar), (")", .rpar), ("[", .lbr), ("]", .rbr), ("{", .lbrace), ("}", .rbrace), (";", .semi), (",", .comma), ("@", .at),
   ("->", .arrow), ("!", .bang), ("~", .tilde), ("^", .bop .pow), ("*", .bop .mul), ("/", .bop .div), ("+", .bop .add),
   ("-", .bop .sub), ("==", .bop (.cmp .eq)), ("!=", .bop (.cmp .ne)), ("<", .bop (.cmp .lt)), (">", .bop (.cmp .gt)),
   ("<=", .bop (.cmp .le)), (">=", .bop (.cmp .ge)), ("=", .asg .set), ("+=", .asg .add), ("-=", .asg .sub), ("*=", .asg .mul),
   ("/=", .asg .div), ("&=", .asg .and), ("|=", .asg .or), ("~=", .asg .not), ("^=", .asg .xor), ("<<=", .asg .shl),
   (">>=", .asg .shr), ("%=", .asg .mod), ("**=", .asg .pow)]

/-- The kind of a token of the scanner. -/
def ofScan : Scanner.Tok → Tk
  | .keyword s => (keywordKinds.lookup (String.ofList s)).getD (.other (.keyword s))
  | .punct s => (symbolKinds.lookup (String.ofList s)).getD (.other (.punct s))
  | .ident s => .ident (String.ofList s)
  | .num n => .lit (.num n)
  | .hardware v => .hw v
  | .str s => .str (String.ofList s)
  | .layout s => .layout s
  | .outputs s => .outputs s
  | t => .other t

/-- The tokens as the expression parser sees them. -/
def Tk.toP : Tk → Parse.Tok Atom
  | .ident s => .atom (.name s)
  | .lit l => .atom (.lit l)
  | .bop o => .bop o
  | .bang => .bang
  | .tilde => .tilde
  | .fn f => .fn f
  | .lpar => .lpar
  | .rpar => .rpar
  | _ => .other 0

/-! ### Model: statements -/

/-- `IndexedIdentifier`. -/
structure Ref where
  name : String
  ix : List (List E)
  deriving DecidableEq

/-- `GateOperand`. -/
inductive Operand
  | hw (v : ℤ)
  | ref (r : Ref)
  deriving DecidableEq

/-- `GateModifier`. -/
inductive Modifier
  | inv
  | pow (e : E)
  | ctrl (pos : Bool) (e : Option E)
  deriving DecidableEq

/-- `QuantumStatement`. -/
inductive Quantum
  | call (gate : String) (ms : List Modifier) (args : List E) (qs : List Operand)
  | reset (q : Operand)
  | barrier (qs : List Operand)
  deriving DecidableEq

/-- `TypeExpr`. -/
inductive Ty
  | int (d : Option E)
  | uint (d : Option E)
  | bit (d : Option E)
  | qubit (d : Option E)
  | float (d : Option E)
  | angle (d : Option E)
  | bool
  | duration
  deriving DecidableEq

/-- `DeclarationExpression`. -/
inductive Init
  | expr (e : E)
  | measure (q : Operand)
  deriving DecidableEq

inductive Statement
  | version (text : List Char) (neg : Bool)
  | decl (const : Bool) (ty : Ty) (name : String) (init : Option Init)
  | gate (name : String) (params qubits : List String) (body : List Quantum) (isOpaque : Bool)
  | assign (o : Asg) (lhs : Ref) (rhs : Init)
  | ite (c : E) (t e : List Statement)
  | quantum (q : Quantum)
  | layout (s : List Char)
  | outputs (s : List Char)

/-! ### Model: the parser -/

/-- A parsing function: what is read and the tokens left. -/
abbrev P (α : Type) := List Tk → Option (α × List Tk)

/-- `expect` (Parser.cpp 86-101). -/
def expect (t : Tk) : List Tk → Option (List Tk)
  | t' :: ts => if t' = t then some ts else none
  | [] => none

/-- `expect(Token::Kind::Identifier)`. -/
def ident : P String
  | .ident s :: ts => some (s, ts)
  | _ => none

/-- `parseExpression` (Parser.cpp 793-822). -/
def expr : P E := fun ts =>
  match Parse.parse (ts.map Tk.toP) with
  | some (e, r) => some (e, ts.drop (ts.length - r.length))
  | none => none

/-- `while (current is not close) { p(); if (current is not close) expect(Comma); }`. -/
def sepBy {α : Type} (p : P α) (close : Tk) : ℕ → P (List α)
  | 0, _ => none
  | n + 1, ts =>
    if ts.head? = some close then some ([], ts)
    else (p ts).bind fun x =>
      if x.2.head? = some close then some ([x.1], x.2)
      else (expect .comma x.2).bind fun r => (sepBy p close n r).bind fun l => some (x.1 :: l.1, l.2)

/-- `sepBy` with a bound that is enough, and the closing token. -/
def list {α : Type} (p : P α) (close : Tk) : P (List α) := fun ts =>
  (sepBy p close (ts.length + 1) ts).bind fun l => (expect close l.2).bind fun r => some (l.1, r)

/-- The index operators (`parseIndexOperator`, Parser.cpp 519-530, and the loop in 535-537). -/
def indices : ℕ → P (List (List E))
  | 0, _ => none
  | n + 1, ts =>
    match ts with
    | .lbr :: r => (list expr .rbr r).bind fun ix => (indices n ix.2).bind fun l => some (ix.1 :: l.1, l.2)
    | _ => some ([], ts)

/-- `parseIndexedIdentifier` (Parser.cpp 532-539). -/
def ref : P Ref := fun ts =>
  (ident ts).bind fun s => (indices (s.2.length + 1) s.2).bind fun ix => some (⟨s.1, ix.1⟩, ix.2)

/-- `parseGateOperand` (Parser.cpp 541-548). -/
def operand : P Operand
  | .hw v :: r => some (.hw v, r)
  | ts => (ref ts).bind fun r => some (.ref r.1, r.2)

/-- The number of controls of a modifier (Parser.cpp 505-510). -/
def ctrlArg (pos : Bool) : P Modifier
  | .lpar :: r => (expr r).bind fun e => (expect .rpar e.2).bind fun r => some (.ctrl pos (some e.1), r)
  | ts => some (.ctrl pos none, ts)

/-- `parseGateModifier` (Parser.cpp 487-517). -/
def modifier : P Modifier
  | .kw .inv :: r => some (.inv, r)
  | .kw .pow :: r => (expect .lpar r).bind fun r => (expr r).bind fun e => (expect .rpar e.2).bind fun r => some (.pow e.1, r)
  | .kw .ctrl :: r => ctrlArg true r
  | .kw .negctrl :: r => ctrlArg false r
  | _ => none

def isModifier (t : Option Tk) : Bool :=
  t = some (.kw .inv) || t = some (.kw .pow) || t = some (.kw .ctrl) || t = some (.kw .negctrl)

/-- The loop over the modifiers (Parser.cpp 432-438). -/
def modifiers : ℕ → P (List Modifier)
  | 0, _ => none
  | n + 1, ts =>
    if isModifier ts.head? then
      (modifier ts).bind fun m => (expect .at m.2).bind fun r => (modifiers n r).bind fun l => some (m.1 :: l.1, l.2)
    else some ([], ts)

/-- The name of the gate, and whether there need be no operands (Parser.cpp 440-448). -/
def gateName : P (String × Bool)
  | .kw .gphase :: r => some (("gphase", true), r)
  | ts => (ident ts).bind fun s => some ((s.1, false), s.2)

/-- The arguments (Parser.cpp 450-460). -/
def arguments : P (List E)
  | .lpar :: r => list expr .rpar r
  | ts => some ([], ts)

/-- `parseGateCallStatement` (Parser.cpp 428-484). -/
def call : P Quantum := fun ts =>
  (modifiers (ts.length + 1) ts).bind fun ms => (gateName ms.2).bind fun g => (arguments g.2).bind fun as =>
    if as.2.head? = some .lbr then none
    else (list operand .semi as.2).bind fun qs =>
      if g.1.2 = false ∧ qs.1 = [] then none else some (.call g.1.1 ms.1 as.1 qs.1, qs.2)

/-- `parseQuantumStatement` (Parser.cpp 229-251), with `parseResetStatement` and `parseBarrierStatement` (360-385). -/
def quantum : P Quantum := fun ts =>
  match ts with
  | .kw .inv :: _ => call ts
  | .kw .pow :: _ => call ts
  | .kw .ctrl :: _ => call ts
  | .kw .negctrl :: _ => call ts
  | .ident _ :: _ => call ts
  | .kw .gphase :: _ => call ts
  | .kw .reset :: r => (operand r).bind fun q => (expect .semi q.2).bind fun r => some (.reset q.1, r)
  | .kw .barrier :: r => (list operand .semi r).bind fun qs => some (.barrier qs.1, qs.2)
  | _ => none

/-- The declarations of OpenQASM 2, with the size after the name (Parser.cpp 844-851). -/
def TyKw.old : TyKw → Bool
  | .creg => true
  | .qreg => true
  | _ => false

/-- `allowsDesignator` (Types.hpp 83, 169). -/
def TyKw.sized : TyKw → Bool
  | .bool => false
  | .duration => false
  | _ => true

/-- The type with this designator (Parser.cpp 843-878). -/
def TyKw.type (d : Option E) : TyKw → Ty
  | .creg => .bit d
  | .qreg => .qubit d
  | .int => .int d
  | .uint => .uint d
  | .bit => .bit d
  | .qubit => .qubit d
  | .float => .float d
  | .angle => .angle d
  | .bool => .bool
  | .duration => .duration

/-- A designator if one comes (`parseTypeDesignator`, Parser.cpp 894-899); an error if it is not allowed. -/
def designator (allowed : Bool) : P (Option E)
  | .lbr :: r => if allowed then (expr r).bind fun e => (expect .rbr e.2).bind fun r => some (some e.1, r) else none
  | ts => some (none, ts)

/-- `parseDeclarationExpression` and `parseMeasureExpression` (Parser.cpp 634-652). -/
def init : P Init
  | .kw .measure :: r => (operand r).bind fun q => some (.measure q.1, q.2)
  | .lbr :: _ => none
  | ts => (expr ts).bind fun e => some (.expr e.1, e.2)

/-- The value of a declaration (Parser.cpp 571-575). -/
def optInit : P (Option Init)
  | .asg .set :: r => (init r).bind fun i => some (some i.1, i.2)
  | ts => some (none, ts)

/-- `parseDeclaration` (Parser.cpp 550-583), with `parseType` (839-892). -/
def declaration (const : Bool) : P Statement
  | .ty k :: r =>
    (if k.old then some (none, r) else designator k.sized r).bind fun d => (ident d.2).bind fun s =>
      (designator (k.old && k.sized) s.2).bind fun d' => (optInit d'.2).bind fun i => (expect .semi i.2).bind fun r =>
        some (.decl const (k.type (if k.old then d'.1 else d.1)) s.1 i.1, r)
  | _ => none

/-- `parseIdentifierList` (Parser.cpp 824-837). -/
def idents : ℕ → P (List String)
  | 0, _ => none
  | n + 1, ts => (ident ts).bind fun s =>
    match s.2 with
    | .comma :: r => (idents n r).bind fun l => some (s.1 :: l.1, l.2)
    | _ => some ([s.1], s.2)

/-- The parameters of a gate (Parser.cpp 589-596). -/
def params : P (List String)
  | .lpar :: r => (idents (r.length + 1) r).bind fun l => (expect .rpar l.2).bind fun r => some (l.1, r)
  | ts => some ([], ts)

/-- The body of a gate (Parser.cpp 602-605). -/
def body : ℕ → P (List Quantum)
  | 0, _ => none
  | n + 1, ts =>
    if ts.head? = some .rbrace then some ([], ts)
    else (quantum ts).bind fun q => (body n q.2).bind fun l => some (q.1 :: l.1, l.2)

/-- The name, the parameters and the qubits of a gate (Parser.cpp 587-598). -/
def gateHead : P (String × List String × List String) := fun ts =>
  (ident ts).bind fun s => (params s.2).bind fun ps => (idents (ps.2.length + 1) ps.2).bind fun qs => some ((s.1, ps.1, qs.1), qs.2)

/-- `parseGateDefinition` (Parser.cpp 585-610), after the keyword. -/
def gateDefinition : P Statement := fun ts =>
  (gateHead ts).bind fun h => (expect .lbrace h.2).bind fun r => (body (r.length + 1) r).bind fun b =>
    (expect .rbrace b.2).bind fun r => some (.gate h.1.1 h.1.2.1 h.1.2.2 b.1 false, r)

/-- `parseOpaqueGateDefinition` (Parser.cpp 612-632), after the keyword. -/
def opaqueDefinition : P Statement := fun ts =>
  (gateHead ts).bind fun h => (expect .semi h.2).bind fun r => some (.gate h.1.1 h.1.2.1 h.1.2.2 [] true, r)

/-- The assignment operators (Parser.cpp 286-329). -/
def asgOp : P Asg
  | .asg o :: r => some (o, r)
  | _ => none

/-- `parseAssignmentStatement` (Parser.cpp 283-340). -/
def assignment : P Statement := fun ts =>
  (ref ts).bind fun l => (asgOp l.2).bind fun o => (init o.2).bind fun i => (expect .semi i.2).bind fun r =>
    some (.assign o.1 l.1 i.1, r)

/-- `parseMeasureStatement` (Parser.cpp 342-358), after the keyword. -/
def measure : P Statement := fun ts =>
  (operand ts).bind fun q => (expect .arrow q.2).bind fun r => (ref r).bind fun c => (expect .semi c.2).bind fun r =>
    some (.assign .set c.1 (.measure q.1), r)

/-- `while (!isAtEnd() && current().kind != RBrace)` (Parser.cpp 416-418). -/
def statements (st : P Statement) : ℕ → P (List Statement)
  | 0, _ => none
  | n + 1, ts =>
    if ts = [] ∨ ts.head? = some .rbrace then some ([], ts)
    else (st ts).bind fun s => (statements st n s.2).bind fun l => some (s.1 :: l.1, l.2)

/-- `parseBlockOrStatement` (Parser.cpp 410-426). -/
def block (st : P Statement) (n : ℕ) : P (List Statement)
  | .lbrace :: r => (statements st n r).bind fun l => (expect .rbrace l.2).bind fun r => some (l.1, r)
  | ts => (st ts).bind fun s => some ([s.1], s.2)

/-- The part of an `if` after the condition and the first branch (Parser.cpp 396-401). -/
def elseBranch (st : P Statement) (n : ℕ) : P (List Statement)
  | .kw .els :: r => block st n r
  | ts => some ([], ts)

/-- `parseIfStatement` (Parser.cpp 387-408), after the keyword. -/
def ifStatement (st : P Statement) (n : ℕ) : P Statement := fun ts =>
  (expect .lpar ts).bind fun r => (expr r).bind fun c => (expect .rpar c.2).bind fun r => (block st n r).bind fun t =>
    (elseBranch st n t.2).bind fun e => some (.ite c.1 t.1 e.1, e.2)

/-- Whether an identifier with this token after it starts an assignment (Parser.cpp 195-218). -/
def isAssignment : Option Tk → Bool
  | some .lbr => true
  | some (.asg _) => true
  | _ => false

/-- The files: those on the disk, and qelib1.inc (StdGates.hpp). -/
structure Files where
  disk : String → Option (List Tk)
  qelib : List Tk

/-- The tokens after an `include` statement (Parser.cpp 253-281). -/
def Files.resolve (F : Files) (f : String) (ts : List Tk) : Option (List Tk) :=
  match F.disk f with
  | some l => some (l ++ ts)
  | none => if f = "stdgates.inc" then some ts else if f = "qelib1.inc" then some (F.qelib ++ ts) else none

/-- `parseInclude` if an `include` comes (Parser.cpp 152-156, 253-281). -/
def skipInclude (F : Files) : List Tk → Option (List Tk)
  | .kw .incl :: .str f :: .semi :: r => F.resolve f r
  | .kw .incl :: _ => none
  | ts => some ts

/-- `parseStatement` after an `include` (Parser.cpp 158-226); `st` are the statements inside of it. -/
def statementOf (st : P Statement) (n : ℕ) (ts : List Tk) : Option (Statement × List Tk) :=
  match ts with
  | .kw .const :: r => declaration true r
  | .ty _ :: _ => declaration false ts
  | .layout s :: r => some (.layout s, r)
  | .outputs s :: r => some (.outputs s, r)
  | .kw .gate :: r => gateDefinition r
  | .kw .opaq :: r => opaqueDefinition r
  | .ident _ :: r => if isAssignment r.head? then assignment ts else (quantum ts).bind fun q => some (.quantum q.1, q.2)
  | .kw .cond :: r => ifStatement st n r
  | .kw .measure :: r => measure r
  | _ => (quantum ts).bind fun q => some (.quantum q.1, q.2)

/-- `parseStatement` (Parser.cpp 151-227). -/
def statement (F : Files) : ℕ → P Statement
  | 0, _ => none
  | n + 1, ts => (skipInclude F ts).bind (statementOf (statement F n) n)

/-- `parseVersionDeclaration` (Parser.cpp 113-119), after the keyword. -/
def version : P Statement
  | .lit (.num (.float s neg)) :: r => (expect .semi r).bind fun r => some (.version s neg, r)
  | _ => none

/-- The tokens after which a version is still allowed (Parser.cpp 139-143). -/
def isComment : Option Tk → Bool
  | some (.layout _) => true
  | some (.outputs _) => true
  | _ => false

/-- `parseProgram` (Parser.cpp 121-149). -/
def program (F : Files) : ℕ → Bool → List Tk → Option (List Statement)
  | 0, _, _ => none
  | n + 1, allowed, ts =>
    match ts with
    | [] => some []
    | .kw .openqasm :: r =>
      if allowed then (version r).bind fun v => (program F n false v.2).bind fun l => some (v.1 :: l) else none
    | t :: r => (statement F n (t :: r)).bind fun s => (program F n (allowed && isComment (some t)) s.2).bind fun l => some (s.1 :: l)

/-! ### Specification: the texts of a program -/

/-- A text of an expression (`Parse.Text`). -/
def ExprText (e : E) (ts : List Tk) : Prop := Parse.Text true 0 e (ts.map Tk.toP)

/-- One or more texts separated by commas; with `loose` a comma may come after the last. -/
inductive Sep (loose : Bool) {α : Type} (p : α → List Tk → Prop) : List α → List Tk → Prop
  | one {x : α} {ts : List Tk} : p x ts → Sep loose p [x] ts
  | last {x : α} {ts : List Tk} : loose = true → p x ts → Sep loose p [x] (ts ++ [.comma])
  | cons {x : α} {l : List α} {ts ts' : List Tk} : p x ts → Sep loose p l ts' → Sep loose p (x :: l) (ts ++ .comma :: ts')

/-- Texts one after the other. -/
inductive Cat {α : Type} (p : α → List Tk → Prop) : List α → List Tk → Prop
  | nil : Cat p [] []
  | cons {x : α} {l : List α} {ts ts' : List Tk} : p x ts → Cat p l ts' → Cat p (x :: l) (ts ++ ts')

/-- An index in brackets; with `loose` there need be nothing inside. -/
inductive IndexText (loose : Bool) : List E → List Tk → Prop
  | mk {ix : List E} {ts : List Tk} : Sep loose ExprText ix ts → IndexText loose ix (.lbr :: (ts ++ [.rbr]))
  | empty : loose = true → IndexText loose [] [.lbr, .rbr]

inductive RefText (loose : Bool) : Ref → List Tk → Prop
  | mk (s : String) {ix : List (List E)} {ts : List Tk} : Cat (IndexText loose) ix ts → RefText loose ⟨s, ix⟩ (.ident s :: ts)

inductive OperandText (loose : Bool) : Operand → List Tk → Prop
  | hw (v : ℤ) : OperandText loose (.hw v) [.hw v]
  | ref {r : Ref} {ts : List Tk} : RefText loose r ts → OperandText loose (.ref r) ts

inductive ModifierText : Modifier → List Tk → Prop
  | inv : ModifierText .inv [.kw .inv, .at]
  | pow {e : E} {ts : List Tk} : ExprText e ts → ModifierText (.pow e) (.kw .pow :: .lpar :: (ts ++ [.rpar, .at]))
  | ctrl (pos : Bool) : ModifierText (.ctrl pos none) [.kw (if pos then .ctrl else .negctrl), .at]
  | ctrls (pos : Bool) {e : E} {ts : List Tk} : ExprText e ts →
      ModifierText (.ctrl pos (some e)) (.kw (if pos then .ctrl else .negctrl) :: .lpar :: (ts ++ [.rpar, .at]))

inductive ArgsText (loose : Bool) : List E → List Tk → Prop
  | none : ArgsText loose [] []
  | empty : ArgsText loose [] [.lpar, .rpar]
  | mk {l : List E} {ts : List Tk} : Sep loose ExprText l ts → ArgsText loose l (.lpar :: (ts ++ [.rpar]))

inductive QuantumText (loose : Bool) : Quantum → List Tk → Prop
  | call (g : String) {ms : List Modifier} {as : List E} {qs : List Operand} {tm ta tq : List Tk} :
      Cat ModifierText ms tm → ArgsText loose as ta → Sep loose (OperandText loose) qs tq →
      QuantumText loose (.call g ms as qs) (tm ++ .ident g :: (ta ++ (tq ++ [.semi])))
  | gphase {ms : List Modifier} {as : List E} {qs : List Operand} {tm ta tq : List Tk} :
      Cat ModifierText ms tm → ArgsText loose as ta → Sep loose (OperandText loose) qs tq →
      QuantumText loose (.call "gphase" ms as qs) (tm ++ .kw .gphase :: (ta ++ (tq ++ [.semi])))
  | global {ms : List Modifier} {as : List E} {tm ta : List Tk} : Cat ModifierText ms tm → ArgsText loose as ta →
      QuantumText loose (.call "gphase" ms as []) (tm ++ .kw .gphase :: (ta ++ [.semi]))
  | reset {q : Operand} {ts : List Tk} : OperandText loose q ts → QuantumText loose (.reset q) (.kw .reset :: (ts ++ [.semi]))
  | barrier {qs : List Operand} {ts : List Tk} : Sep loose (OperandText loose) qs ts →
      QuantumText loose (.barrier qs) (.kw .barrier :: (ts ++ [.semi]))
  | empty : loose = true → QuantumText loose (.barrier []) [.kw .barrier, .semi]

inductive DesText : Option E → List Tk → Prop
  | none : DesText none []
  | some {e : E} {ts : List Tk} : ExprText e ts → DesText (some e) (.lbr :: (ts ++ [.rbr]))

inductive InitText (loose : Bool) : Init → List Tk → Prop
  | expr {e : E} {ts : List Tk} : ExprText e ts → InitText loose (.expr e) ts
  | measure {q : Operand} {ts : List Tk} : OperandText loose q ts → InitText loose (.measure q) (.kw .measure :: ts)

inductive OptInitText (loose : Bool) : Option Init → List Tk → Prop
  | none : OptInitText loose none []
  | some {i : Init} {ts : List Tk} : InitText loose i ts → OptInitText loose (some i) (.asg .set :: ts)

/-- `type[size] name = value;` or, for `qreg` and `creg`, `type name[size] = value;`. -/
inductive DeclText (loose const : Bool) : Statement → List Tk → Prop
  | new {k : TyKw} {d : Option E} {i : Option Init} {td ti : List Tk} (s : String) : k.old = false → (k.sized = false → d = none) →
      DesText d td → OptInitText loose i ti →
      DeclText loose const (.decl const (k.type d) s i) (.ty k :: (td ++ .ident s :: (ti ++ [.semi])))
  | old {k : TyKw} {d : Option E} {i : Option Init} {td ti : List Tk} (s : String) : k.old = true →
      DesText d td → OptInitText loose i ti →
      DeclText loose const (.decl const (k.type d) s i) (.ty k :: .ident s :: (td ++ (ti ++ [.semi])))

def IdentText (s : String) (ts : List Tk) : Prop := ts = [.ident s]

inductive ParamsText : List String → List Tk → Prop
  | none : ParamsText [] []
  | mk {l : List String} {ts : List Tk} : Sep false IdentText l ts → ParamsText l (.lpar :: (ts ++ [.rpar]))

/-- The statements without others inside. -/
inductive SimpleText (loose : Bool) : Statement → List Tk → Prop
  | decl {s : Statement} {ts : List Tk} : DeclText loose false s ts → SimpleText loose s ts
  | const {s : Statement} {ts : List Tk} : DeclText loose true s ts → SimpleText loose s (.kw .const :: ts)
  | gate (g : String) {ps qs : List String} {b : List Quantum} {tp tq tb : List Tk} :
      ParamsText ps tp → Sep false IdentText qs tq → Cat (QuantumText loose) b tb →
      SimpleText loose (.gate g ps qs b false) (.kw .gate :: .ident g :: (tp ++ (tq ++ .lbrace :: (tb ++ [.rbrace]))))
  | opaq (g : String) {ps qs : List String} {tp tq : List Tk} : ParamsText ps tp → Sep false IdentText qs tq →
      SimpleText loose (.gate g ps qs [] true) (.kw .opaq :: .ident g :: (tp ++ (tq ++ [.semi])))
  | assign (o : Asg) {l : Ref} {i : Init} {tl ti : List Tk} : RefText loose l tl → InitText loose i ti →
      SimpleText loose (.assign o l i) (tl ++ .asg o :: (ti ++ [.semi]))
  | measure {q : Operand} {c : Ref} {tq tc : List Tk} : OperandText loose q tq → RefText loose c tc →
      SimpleText loose (.assign .set c (.measure q)) (.kw .measure :: (tq ++ .arrow :: (tc ++ [.semi])))
  | quantum {q : Quantum} {ts : List Tk} : QuantumText loose q ts → SimpleText loose (.quantum q) ts
  | layout (s : List Char) : SimpleText loose (.layout s) [.layout s]
  | outputs (s : List Char) : SimpleText loose (.outputs s) [.outputs s]

inductive Shape
  | one | seq | block

/-- The texts of one statement, of a sequence, and of a branch of an `if`: a statement or a sequence in braces.  `closed`
are those that an `else` may come after, as it cannot belong to them. -/
inductive StText (loose : Bool) : Shape → Bool → List Statement → List Tk → Prop
  | simple (closed : Bool) {s : Statement} {ts : List Tk} : SimpleText loose s ts → StText loose .one closed [s] ts
  | cond (closed : Bool) {c : E} {t : List Statement} {tc tt : List Tk} : ExprText c tc → StText loose .block closed t tt →
      StText loose .one false [.ite c t []] (.kw .cond :: .lpar :: (tc ++ .rpar :: tt))
  | condElse {closed : Bool} {c : E} {t e : List Statement} {tc tt te : List Tk} : ExprText c tc → StText loose .block true t tt →
      StText loose .block closed e te → StText loose .one closed [.ite c t e] (.kw .cond :: .lpar :: (tc ++ .rpar :: (tt ++ .kw .els :: te)))
  | nil (closed : Bool) : StText loose .seq closed [] []
  | cons (closed closed' : Bool) {s : Statement} {l : List Statement} {ts ts' : List Tk} : StText loose .one closed' [s] ts →
      StText loose .seq closed l ts' → StText loose .seq closed (s :: l) (ts ++ ts')
  | braces {closed : Bool} (closed' : Bool) {l : List Statement} {ts : List Tk} : StText loose .seq closed l ts →
      StText loose .block closed' l (.lbrace :: (ts ++ [.rbrace]))
  | single {closed : Bool} {s : Statement} {ts : List Tk} : StText loose .one closed [s] ts → StText loose .block closed [s] ts

/-- The texts of a program; `allowed` if a version may still come. -/
inductive ProgramText (loose : Bool) (F : Files) : Bool → List Statement → List Tk → Prop
  | nil (allowed : Bool) : ProgramText loose F allowed [] []
  | version (s : List Char) (neg : Bool) {l : List Statement} {ts : List Tk} : ProgramText loose F false l ts →
      ProgramText loose F true (.version s neg :: l) (.kw .openqasm :: .lit (.num (.float s neg)) :: .semi :: ts)
  | cons (allowed closed : Bool) {s : Statement} {l : List Statement} {ts ts' : List Tk} : StText loose .one closed [s] ts →
      ProgramText loose F (allowed && isComment ts.head?) l ts' → ProgramText loose F allowed (s :: l) (ts ++ ts')
  | incl (allowed closed : Bool) (f : String) {s : Statement} {l : List Statement} {ts ts' rest : List Tk} :
      F.resolve f rest = some (ts ++ ts') → StText loose .one closed [s] ts → ProgramText loose F false l ts' →
      ProgramText loose F allowed (s :: l) (.kw .incl :: .str f :: .semi :: rest)

end MQT.QASM.Program
