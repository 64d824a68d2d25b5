/-
The scanner of the OpenQASM importer (src/qasm3/Scanner.cpp).

The text is a list of characters, the first of which is the scanner's `ch`; the character is 0 at the end of the text.  A kind
of token with a fixed text is written as that text (Token.cpp 20-272).  The value of a floating-point literal is `stod` of
its text, which is kept as it is.  Lines and columns, and messages on the error stream, are not modelled.  Characters other
than ASCII are negative arguments of `isalpha`, and left out.
-/
import Verif.Common.Res
import Mathlib.Data.List.TakeWhile
import Mathlib.Data.List.Infix

set_option autoImplicit false

namespace MQT.QASM.Scanner

/-! ### Model -/

/-- A number: of an integer literal, or of a floating-point literal by its text and sign. -/
inductive Num
  | int (v : ℤ) (signed : Bool)
  | float (text : List Char) (neg : Bool)
  deriving DecidableEq

/-- `Token` (Token.hpp 21-197).  The value of a timing literal is the number times `10^(-exp)`. -/
inductive Tok
  | eof
  | none
  | keyword (name : List Char)
  | ident (name : List Char)
  | punct (text : List Char)
  | num (n : Num)
  | timing (n : Num) (exp : ℕ)
  | hardware (v : ℤ)
  | str (s : List Char)
  | layout (s : List Char)
  | outputs (s : List Char)
  deriving DecidableEq

/-- What `next` does: a token and the text after it, an endless loop, or undefined behaviour. -/
inductive Outcome
  | tok (t : Tok) (rest : List Char)
  | loop
  | ub
  deriving DecidableEq

def ch (l : List Char) : Char := l.headD '\x00'

/-- `peek` (Scanner.cpp 49-54). -/
def peek (l : List Char) : Char := ch l.tail

/-- Scanner.cpp 654-656. -/
def isSpace (c : Char) : Bool := c = ' ' || c = '\t' || c = '\r' || c = '\n'

/-- Scanner.cpp 662. -/
def isNum (c : Char) : Bool := 48 ≤ c.toNat && c.toNat ≤ 57

/-- Scanner.cpp 658-660. -/
def isFirstId (c : Char) : Bool := (65 ≤ c.toNat && c.toNat ≤ 90) || (97 ≤ c.toNat && c.toNat ≤ 122) || c = '_'

/-- Scanner.cpp 664-666. -/
def isHex (c : Char) : Bool := isNum c || (97 ≤ c.toNat && c.toNat ≤ 102) || (65 ≤ c.toNat && c.toNat ≤ 70)

/-- `expect` (Scanner.cpp 132-138): another character is left in the text. -/
def expect (c : Char) (l : List Char) : List Char := if ch l = c then l.tail else l

/-- Whether `regex_search` finds the character, a space and a number (Scanner.cpp 72-79): of `(\d+ )*(\d+)` the first digit
is enough. -/
def hasLayout (c : Char) : List Char → Bool
  | a :: b :: d :: l => (a = c && b = ' ' && isNum d) || hasLayout c (b :: d :: l)
  | _ => false

/-- The token of a comment (Scanner.cpp 75-82). -/
def classify (s : List Char) : Option Tok :=
  if hasLayout 'i' s then some (.layout s) else if hasLayout 'o' s then some (.outputs s) else none

/-- A character of a comment up to the end of the line (Scanner.cpp 64). -/
def inLine (c : Char) : Bool := c ≠ '\n' && c ≠ '\x00'

/-- The text after the line (Scanner.cpp 64-70). -/
def afterLine (l : List Char) : List Char :=
  if ch (l.dropWhile inLine) = '\n' then (l.dropWhile inLine).tail else l.dropWhile inLine

/-- The loop over a comment (Scanner.cpp 93-95). -/
def skipBlock : List Char → List Char
  | [] => []
  | c :: l => if c = '\x00' ∨ (c = '*' ∧ ch l = '/') then c :: l else skipBlock l

/-- `consumeWhitespaceAndComments` (Scanner.cpp 56-105), with the depth of the recursion bounded. -/
def gap : ℕ → List Char → Option Tok × List Char
  | 0, l => (none, l)
  | fuel + 1, l0 =>
    let l := l0.dropWhile isSpace
    if ch l = '/' ∧ peek l = '/' then
      match classify (l.takeWhile inLine) with
      | some t => (some t, afterLine l)
      | none => gap fuel (afterLine l)
    else if ch l = '/' ∧ peek l = '*' then gap fuel (expect '/' (expect '*' (skipBlock (l.drop 2))))
    else (none, l)

/-- The keywords (Scanner.cpp 347-406). -/
def keywords : List (List Char) :=
  ["OPENQASM", "include", "defcalgrammar", "def", "cal", "defcal", "gate", "opaque", "extern", "box", "let", "break",
   "continue", "if", "else", "end", "return", "for", "while", "in", "pragma", "input", "output", "const", "readonly",
   "mutable", "qreg", "qubit", "creg", "bool", "bit", "int", "uint", "float", "angle", "complex", "array", "void",
   "duration", "stretch", "gphase", "inv", "pow", "ctrl", "negctrl", "#dim", "durationof", "delay", "reset", "measure",
   "barrier", "true", "false", "im", "sin", "cos", "tan", "exp", "ln", "sqrt"].map String.toList

/-- A character of a name after the first. -/
def isId (c : Char) : Bool := isFirstId c || isNum c

/-- `consumeName` (Scanner.cpp 107-125). -/
def name (l : List Char) : Outcome :=
  let s := l.takeWhile isId
  .tok (if s ∈ keywords then .keyword s else .ident s) (l.dropWhile isId)

/-- `isValidDigit` (Scanner.cpp 140-154). -/
def isDigit (base : ℕ) (c : Char) : Bool :=
  if base = 2 then c = '0' || c = '1'
  else if base = 8 then 48 ≤ c.toNat && c.toNat ≤ 55
  else if base = 10 then isNum c
  else if base = 16 then isHex c
  else false

/-- `consumeNumberLiteral(base)` (Scanner.cpp 156-166). -/
def digits (base : ℕ) (l : List Char) : List Char := (l.takeWhile fun c => isDigit base c || c = '_').filter (· ≠ '_')

def afterDigits (base : ℕ) (l : List Char) : List Char := l.dropWhile fun c => isDigit base c || c = '_'

/-- `parseIntegerLiteral` (Scanner.cpp 168-181), before the result is taken modulo `2^64`. -/
def parseInt (base : ℕ) (s : List Char) : ℤ :=
  s.foldl (fun v c => if isNum c then v * base + (c.toNat - '0'.toNat : ℤ) else v * base + (c.toNat - 'a'.toNat + 10 : ℤ)) 0

/-- A 64-bit number as a signed one. -/
def toI64 (v : ℤ) : ℤ := Int.bmod v (2 ^ 64)

/-- The base and the text after its mark (Scanner.cpp 187-209). -/
def baseOf (l : List Char) : ℕ × List Char :=
  if ch l = '0' then
    if peek l = 'b' ∨ peek l = 'B' then (2, l.drop 2)
    else if peek l = 'o' then (8, l.drop 2)
    else if peek l = 'x' ∨ peek l = 'X' then (16, l.drop 2)
    else (10, l)
  else (10, l)

/-- The part of a floating-point literal from the decimal point (Scanner.cpp 229-234). -/
def fraction (base : ℕ) (l : List Char) : List Char × List Char :=
  if ch l = '.' then ('.' :: digits base l.tail, afterDigits base l.tail) else ([], l)

/-- The exponent (Scanner.cpp 236-245). -/
def exponent (base : ℕ) (l : List Char) : List Char × List Char :=
  if ch l = 'e' ∨ ch l = 'E' then
    let r := l.tail
    if ch r = '+' ∨ ch r = '-' then (ch l :: ch r :: digits base r.tail, afterDigits base r.tail)
    else (ch l :: digits base r, afterDigits base r)
  else ([], l)

/-- `hasTimingSuffix` (Scanner.cpp 668-678). -/
def hasSuffix (a b : Char) : Bool :=
  a = 's' || (a, b) ∈ [('m', 's'), ('u', 's'), ('n', 's'), ('p', 's'), ('d', 't')]

/-- The suffix of a number (Scanner.cpp 267-291). -/
def suffix (n : Num) (l : List Char) : Outcome :=
  if hasSuffix (ch l) (peek l) then
    if ch l ≠ 's' ∧ (ch l ≠ 'd' ∨ peek l ≠ 't') then
      .tok (.timing n (if ch l = 'm' then 3 else if ch l = 'u' then 6 else if ch l = 'n' then 9 else if ch l = 'p' then 12 else 0))
        (l.drop 2)
    else .tok (.timing n 0) l.tail
  else .tok (.num n) l

/-- `consumeNumberLiteral` (Scanner.cpp 183-297).  Changing the sign of `-2^63` overflows. -/
def number (l : List Char) : Outcome :=
  let (base, l) := baseOf l
  let (neg, l) := if ch l = '-' then (true, l.tail) else (false, l)
  let before := digits base l
  let r := afterDigits base l
  if ch r = '.' ∨ ch r = 'e' ∨ ch r = 'E' then
    let f := fraction base r
    let e := exponent base f.2
    suffix (.float (before ++ f.1 ++ e.1) neg) e.2
  else
    let v := toI64 (parseInt base before)
    if neg then
      if v = -2 ^ 63 then .ub else suffix (.int (-v) true) r
    else suffix (.int v false) r

/-- `consumeHardwareQubit` (Scanner.cpp 299-316).  The number overflows from `2^63` on. -/
def hardware (l : List Char) : Outcome :=
  let r := expect '$' l
  let v := parseInt 10 (r.takeWhile isNum)
  if v < 2 ^ 63 then .tok (.hardware v) (r.dropWhile isNum) else .ub

/-- `consumeString` (Scanner.cpp 318-344) at a quotation mark.  The loop ends only at another one. -/
def string (l : List Char) : Outcome :=
  match l with
  | [] => .loop
  | delim :: r =>
    let rest := r.dropWhile (· ≠ delim)
    if rest = [] then .loop else .tok (.str (r.takeWhile (· ≠ delim))) rest.tail

/-- The switch over the character (Scanner.cpp 432-647), with the two characters after it: the text of the kind, which is
what is consumed. -/
def punct (c p q : Char) : Option (List Char) :=
  if c = '[' ∨ c = ']' ∨ c = '{' ∨ c = '}' ∨ c = '(' ∨ c = ')' ∨ c = ':' ∨ c = ';' ∨ c = '.' ∨ c = ',' ∨ c = '@' then some [c]
  else if c = '-' then
    if p = '>' then some ['-', '>'] else if p = '=' then some ['-', '='] else some ['-']
  else if c = '+' then
    if p = '=' then some ['+', '='] else if p = '+' then some ['+', '+'] else some ['+']
  else if c = '*' then
    if p = '=' then some ['*', '='] else if p = '*' then (if q = '=' then some ['*', '*', '='] else some ['*', '*']) else some ['*']
  else if c = '/' then if p = '=' then some ['/', '='] else some ['/']
  else if c = '%' then if p = '=' then some ['%', '='] else some ['%']
  else if c = '|' then
    if p = '=' then some ['|', '='] else if p = '|' then some ['|', '|'] else some ['|']
  else if c = '&' then
    if p = '=' then some ['&', '='] else if p = '&' then some ['&', '&'] else some ['&']
  else if c = '^' then if p = '=' then some ['^', '='] else some ['^']
  else if c = '~' then if p = '=' then some ['~', '='] else some ['~']
  else if c = '!' then if p = '=' then some ['!', '='] else some ['!']
  else if c = '<' then
    if p = '=' then some ['<', '='] else if p = '<' then (if q = '=' then some ['<', '<', '='] else some ['<', '<']) else some ['<']
  else if c = '>' then
    if p = '=' then some ['>', '='] else if p = '>' then (if q = '=' then some ['>', '>', '='] else some ['>', '>']) else some ['>']
  else if c = '=' then if p = '=' then some ['=', '='] else some ['=']
  else none

/-- A token at a character that is not white space or the start of a comment (Scanner.cpp 416-651). -/
def token (l : List Char) : Outcome :=
  if isFirstId (ch l) then name l
  else if isNum (ch l) || (ch l = '.' && isNum (peek l)) || (ch l = '-' && isNum (peek l)) then number l
  else if ch l = '$' then hardware l
  else if ch l = '"' ∨ ch l = '\'' then string l
  else if ch l = '\x00' then .tok .eof l
  else match punct (ch l) (peek l) (peek l.tail) with
    | some s => .tok (.punct s) (l.drop s.length)
    | none => .tok .none (l.drop 2)

/-- `next` (Scanner.cpp 411-652). -/
def next (l : List Char) : Outcome :=
  match gap (l.length + 1) l with
  | (some t, r) => .tok t r
  | (none, r) => token r

/-- What the parser reads: the tokens up to the end of the text. -/
inductive Result
  | ok (ts : List Tok)
  | loop
  | ub
  deriving DecidableEq

def scanF : ℕ → List Char → Result
  | 0, _ => .loop
  | fuel + 1, l => match next l with
    | .tok .eof _ => .ok []
    | .tok t r => match scanF fuel r with
      | .ok ts => .ok (t :: ts)
      | e => e
    | .loop => .loop
    | .ub => .ub

def scan (l : List Char) : Result := scanF (l.length + 1) l

end MQT.QASM.Scanner
