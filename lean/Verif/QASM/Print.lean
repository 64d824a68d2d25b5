/-
The text of an exported circuit: what is written to the stream by `QuantumComputation::dumpOpenQASM` (src/ir/QuantumComputation.cpp
55-74, 633-702), `StandardOperation::dumpOpenQASM` (src/ir/operations/StandardOperation.cpp 253-495, 645-701),
`NonUnitaryOperation::dumpOpenQASM` (src/ir/operations/NonUnitaryOperation.cpp 90-126) and `Register::toString`
(include/mqt-core/ir/Register.hpp 65-67), for the statements of Verif/QASM/Dump.lean and Verif/QASM/DumpGate.lean; and that
scanner and parser read it as these statements.

A parameter is printed as a decimal number with or without a point and an exponent; which one is arbitrary.
-/
import Verif.QASM.DumpGate
import Verif.QASM.LayoutHeader
import Verif.QASM.ProgramProof

set_option autoImplicit false

namespace MQT.QASM.Print

open MQT.QASM.GateCall (Arg Mod Call)
open MQT.QASM.Program (E Tk Statement ofScan)
open MQT.QASM.Scanner

/-! ### Model -/

/-- An unsigned integer. -/
def nat (n : ℕ) : List Char := Nat.toDigits 10 n

/-- The name of a register, and `toString` (Register.hpp 65-67). -/
def operand : Operand → List Char
  | .reg s => s.toList
  | .elem s i => s.toList ++ '[' :: (nat i ++ [']'])

/-- A parameter. -/
def num : Num → List Char
  | .int v neg => (if neg then ['-'] else []) ++ nat v.natAbs
  | .float t neg => (if neg then ['-'] else []) ++ t

/-- A parameter, or `pi/k` or `-pi/k`; nothing else is printed. -/
def expr : E → List Char
  | .atom (.name s) => s.toList
  | .atom (.lit (.num n)) => num n
  | .un .neg e => '-' :: expr e
  | .bin .div a b => expr a ++ '/' :: expr b
  | _ => []

/-- Parts with commas between them. -/
def commas : List (List Char) → List Char
  | [] => []
  | [a] => a
  | a :: b :: l => a ++ ',' :: commas (b :: l)

/-- The parameters in parentheses. -/
def args : List E → List Char
  | [] => []
  | e :: l => '(' :: (commas ((e :: l).map expr) ++ [')'])

/-- An operand of a gate. -/
def arg : Arg → List Char
  | .op o => operand o
  | .hw n => '$' :: nat n

/-- The operands of a gate, each with a space in front. -/
def operands (l : List Arg) : List Char := commas (l.map fun o => ' ' :: arg o)

/-- The controls (StandardOperation.cpp 679-700); others are not exported. -/
def mods : List Mod → List Char
  | .ctrl pos n :: l => (if pos then "ctrl" else "negctrl").toList ++
      ((if 1 < n then '(' :: (nat n ++ [')']) else []) ++ (" @ ".toList ++ mods l))
  | _ => []

/-- The end of a statement. -/
def done : List Char := [';', '\n']

def barrier (qs : List Operand) : List Char := "barrier".toList ++ (operands (qs.map .op) ++ done)

/-- A gate or a barrier. -/
def out : GateCall.Out E → List Char
  | .call c => mods c.mods ++ (c.name.toList ++ (args c.args ++ (operands c.operands ++ done)))
  | .barrier qs => barrier qs

/-- A measurement, reset or barrier. -/
def stmt (qasm3 : Bool) : Stmt → List Char
  | .measure t s =>
    if qasm3 then operand t ++ (" = ".toList ++ ("measure".toList ++ (' ' :: operand s ++ done)))
    else "measure".toList ++ (' ' :: operand s ++ (" -> ".toList ++ (operand t ++ done)))
  | .reset q => "reset".toList ++ (' ' :: operand q ++ done)
  | .barrier qs => barrier qs

/-- A declaration (`printSortedRegisters`, QuantumComputation.cpp 64-73). -/
def decl (qasm3 quantum : Bool) (r : Reg) : List Char :=
  if qasm3 then (if quantum then "qubit" else "bit").toList ++ ('[' :: (nat r.size ++ (']' :: (' ' :: r.name.toList ++ done))))
  else (if quantum then "qreg" else "creg").toList ++ (' ' :: (r.name.toList ++ ('[' :: (nat r.size ++ (']' :: done)))))

/-- The version and the included file (QuantumComputation.cpp 663-669). -/
def version (qasm3 : Bool) : List Char :=
  if qasm3 then "OPENQASM 3.0;\ninclude \"stdgates.inc\";\n".toList else "OPENQASM 2.0;\ninclude \"qelib1.inc\";\n".toList

/-- What is exported for an operation. -/
inductive Line
  | out (o : GateCall.Out E)
  | stmt (s : Stmt)

def line (qasm3 : Bool) : Line → List Char
  | .out o => out o
  | .stmt s => stmt qasm3 s

/-- `dumpOpenQASM` (QuantumComputation.cpp 633-702), with the registers in the order of their first qubits and bits. -/
def circuit (qasm3 : Bool) (init outp : PMap) (qregs cregs : List Reg) (ls : List Line) : List Char :=
  header init outp ++ (version qasm3 ++ (qregs.flatMap (decl qasm3 true) ++ (cregs.flatMap (decl qasm3 false) ++ ls.flatMap (line qasm3))))

/-! ### Specification: the statements the text stands for -/

def number (n : Num) : E := .atom (.lit (.num n))

def natural (n : ℕ) : E := number (.int n false)

def piOver (neg : Bool) (k : ℕ) : E :=
  if neg then .un .neg (.bin .div (.atom (.name "pi")) (natural k)) else .bin .div (.atom (.name "pi")) (natural k)

def toRef : Operand → Program.Ref
  | .reg s => ⟨s, []⟩
  | .elem s i => ⟨s, [[natural i]]⟩

def toOperand : Arg → Program.Operand
  | .op o => .ref (toRef o)
  | .hw n => .hw n

def toMod : Mod → Program.Modifier
  | .ctrl pos n => .ctrl pos (if 1 < n then some (natural n) else none)
  | .inv => .inv
  | .pow => .pow (natural 1)

def toQuantum : GateCall.Out E → Program.Quantum
  | .call c => .call c.name (c.mods.map toMod) c.args (c.operands.map toOperand)
  | .barrier qs => .barrier (qs.map fun o => .ref (toRef o))

def toStatement : Line → Statement
  | .out o => .quantum (toQuantum o)
  | .stmt (.measure t s) => .assign .set (toRef t) (.measure (.ref (toRef s)))
  | .stmt (.reset q) => .quantum (.reset (.ref (toRef q)))
  | .stmt (.barrier qs) => .quantum (toQuantum (.barrier qs))

def toDecl (quantum : Bool) (r : Reg) : Statement :=
  .decl false (if quantum then .qubit (some (natural r.size)) else .bit (some (natural r.size))) r.name none

/-! ### What can be read -/

/-- A name that is not a keyword. -/
def IsName (s : String) : Prop :=
  ∃ c w, s.toList = c :: w ∧ isFirstId c = true ∧ (∀ a ∈ w, isId a = true) ∧ c :: w ∉ keywords

/-- A number as it is printed: an integer of less than 63 bits, or digits with a point or an exponent. -/
def IsNumber : Num → Prop
  | .int v neg => v.natAbs < 2 ^ 63 ∧ (if neg then v ≤ 0 else 0 ≤ v)
  | .float t _ => ∃ d w f e, t = d :: w ++ f ++ e ∧ isNum d = true ∧ IsDigits 10 w ∧ IsFraction f ∧ IsExponent e ∧ f ++ e ≠ [] ∧ '_' ∉ t

def IsArgument (e : E) : Prop := (∃ n, IsNumber n ∧ e = number n) ∨ ∃ neg k, k < 2 ^ 63 ∧ e = piOver neg k

def IsOperand : Operand → Prop
  | .reg s => IsName s
  | .elem s i => IsName s ∧ i < 2 ^ 63

def IsArg : Arg → Prop
  | .op o => IsOperand o
  | .hw n => n < 2 ^ 63

def IsMod : Mod → Prop
  | .ctrl _ n => 1 ≤ n ∧ n < 2 ^ 63
  | _ => False

def IsOut : GateCall.Out E → Prop
  | .call c => (IsName c.name ∧ c.operands ≠ [] ∨ c.name = "gphase") ∧ (∀ m ∈ c.mods, IsMod m) ∧ (∀ e ∈ c.args, IsArgument e) ∧
      ∀ o ∈ c.operands, IsArg o
  | .barrier qs => ∀ q ∈ qs, IsOperand q

def IsStmt : Stmt → Prop
  | .measure t s => IsOperand t ∧ IsOperand s
  | .reset q => IsOperand q
  | .barrier qs => ∀ q ∈ qs, IsOperand q

def IsLine : Line → Prop
  | .out o => IsOut o
  | .stmt s => IsStmt s

def IsReg (r : Reg) : Prop := IsName r.name ∧ r.size < 2 ^ 63

/-! ### Scanning -/

/-- The text consists of the tokens, if what comes after it is as demanded. -/
def Pre (stop : List Char → Prop) (s : List Char) (ts : List Tok) : Prop :=
  ∀ rest ts', stop rest → Text rest ts' → Text (s ++ rest) (ts ++ ts')

/-- What may come after a name or a number. -/
def Sep (rest : List Char) : Prop := isId (ch rest) = false ∧ ch rest ≠ '.'

def Any (_ : List Char) : Prop := True

theorem Pre.append {A B : List Char → Prop} {s s' : List Char} {ts ts' : List Tok} (h : Pre A s ts) (h' : Pre B s' ts')
    (hs : ∀ rest, B rest → A (s' ++ rest)) : Pre B (s ++ s') (ts ++ ts') := by
  intro rest us hr ht
  rw [List.append_assoc, List.append_assoc]
  exact h _ _ (hs _ hr) (h' _ _ hr ht)

theorem Pre.any {A : List Char → Prop} {s : List Char} {ts : List Tok} (h : Pre Any s ts) : Pre A s ts :=
  fun rest us _ ht => h rest us trivial ht

theorem Pre.nil {A : List Char → Prop} : Pre A [] [] := fun _ _ _ ht => ht

theorem text_space {c : Char} (hc : isSpace c = true) {l : List Char} {ts : List Tok} (h : Text l ts) : Text (c :: l) ts := by
  cases h with
  | done _ hg => exact .done _ (.space c _ hc hg)
  | doneLine g b hg hb hcl => exact .doneLine (c :: g) b (.space c g hc hg) hb hcl
  | token g w rest t ts hg hl hs hr => exact .token (c :: g) w rest t ts (.space c g hc hg) hl hs hr
  | comment g b rest t ts hg hb hcl hr => exact .comment (c :: g) b rest t ts (.space c g hc hg) hb hcl hr

theorem Pre.space {A : List Char → Prop} {s : List Char} {ts : List Tok} (h : Pre A s ts) {c : Char} (hc : isSpace c = true) :
    Pre A (c :: s) ts := fun rest us hr ht => text_space hc (h rest us hr ht)

theorem Pre.one {A : List Char → Prop} {w : List Char} {t : Tok} (hl : Lex w t) (hs : ∀ rest, A rest → Stops w rest t) : Pre A w [t] :=
  fun rest us hr ht => .token [] w rest t us .nil hl (hs rest hr) ht

theorem pre_name {s : String} (h : IsName s) : Pre Sep s.toList [.ident s.toList] := by
  obtain ⟨c, w, e, hc, hw, hk⟩ := h
  rw [e]
  exact .one (.ident c w hc hw hk) fun rest hr => hr.1

theorem pre_keyword {w : List Char} (h : w ∈ keywords) (hd : w ≠ "#dim".toList) : Pre Sep w [.keyword w] :=
  .one (.keyword w h hd) fun _ hr => hr.1

/-- The symbols that no longer one starts with. -/
def single : List Char := ['(', ')', '[', ']', '{', '}', ';', ',', '@']

theorem single_only : ∀ c ∈ single, [c] ∈ operators ∧ ∀ o ∈ ['/', '/'] :: ['/', '*'] :: operators, o.head? = some c → o.length ≤ 1 := by
  decide +kernel

theorem pre_single {c : Char} (h : c ∈ single) : Pre Any [c] [.punct [c]] := by
  refine .one (.punct _ (single_only c h).1) fun rest _ => ⟨fun o ho hp => ?_, fun hw => ?_⟩
  · cases o with
    | nil => simp
    | cons a o =>
      have : a = c := by simpa using (List.cons_prefix_cons.1 hp).1
      subst this
      exact (single_only a h).2 _ ho rfl
  · exfalso
    revert hw
    simp only [List.cons.injEq, and_true]
    rintro (rfl | rfl) <;> revert h <;> decide

theorem sep_single {c : Char} (h : c ∈ ' ' :: '/' :: single) (rest : List Char) : Sep (c :: rest) := by
  have : ∀ c ∈ ' ' :: '/' :: single, isId c = false ∧ c ≠ '.' := by decide +kernel
  exact this c h

/-- The operators of which another symbol can start a longer one. -/
theorem stops_op {w : List Char} {c : Char} (rest : List Char)
    (h : ∀ o ∈ ['/', '/'] :: ['/', '*'] :: operators, o.take (w.length + 1) ≠ w ++ [c])
    (hm : w = ['-'] ∨ w = ['.'] → isNum c = false) : Stops w (c :: rest) (.punct w) := by
  refine ⟨fun o ho hp => ?_, hm⟩
  by_contra hlt
  apply h o ho
  obtain ⟨r, hr⟩ := hp
  have h1 : (o ++ r).take (w.length + 1) = o.take (w.length + 1) := by
    rw [List.take_append_of_le_length (by omega)]
  rw [← h1, hr, List.take_append, List.take_of_length_le (by omega)]
  simp

/-! ### Digits -/

theorem nat_digits (n : ℕ) : IsDigits 10 (nat n) ∧ value 10 (nat n) = n ∧ ∃ d w, nat n = d :: w ∧ isNum d = true ∧ IsDigits 10 w := by
  have hd : IsDigits 10 (nat n) := fun c hc => .inr (num_digit (isNum_of_mem hc))
  obtain ⟨d, w, e⟩ := List.exists_cons_of_ne_nil (Nat.toDigits_ne_nil (n := n) (b := 10))
  refine ⟨hd, value_toDigits n, d, w, e, isNum_of_mem (n := n) (by rw [e]; simp), fun c hc => hd c ?_⟩
  rw [nat, e]
  exact List.mem_cons_of_mem _ hc

theorem nat_text {n : ℕ} (h : n < 2 ^ 63) : NumText (nat n) (.int n false) := by
  obtain ⟨-, hv, d, w, e, hd, hw⟩ := nat_digits n
  have := NumText.dec d w hd hw (by rw [← e, hv]; exact h)
  rwa [← e, hv] at this

theorem pre_num {w : List Char} {n : Num} (h : NumText w n) : Pre Sep w [.num n] := .one (.num w n h) fun _ hr => hr

theorem pre_nat {n : ℕ} (h : n < 2 ^ 63) : Pre Sep (nat n) [.num (.int n false)] := pre_num (nat_text h)

theorem num_text {n : Num} (h : IsNumber n) : NumText (num n) n := by
  cases n with
  | int v neg =>
    obtain ⟨h1, h2⟩ := h
    obtain ⟨-, hv, d, w, e, hd, hw⟩ := nat_digits v.natAbs
    cases neg with
    | false =>
      have := NumText.dec d w hd hw (by rw [← e, hv]; exact h1)
      rw [← e, hv] at this
      simp only [Bool.false_eq_true, if_false] at h2
      rwa [Int.natAbs_of_nonneg h2] at this
    | true =>
      have := NumText.neg d w hd hw (by rw [← e, hv]; exact h1)
      rw [← e, hv] at this
      simp only [if_true] at h2
      rw [show -(v.natAbs : ℤ) = v by omega] at this
      exact this
  | float t neg =>
    obtain ⟨d, w, f, e, ht, hd, hw, hf, he, hfe, hu⟩ := h
    have hfil : t.filter (· ≠ '_') = t := List.filter_eq_self.2 fun a ha => by
      simp only [ne_eq, decide_eq_true_eq]
      rintro rfl
      exact hu ha
    cases neg with
    | false =>
      have := NumText.float d w f e hd hw hf he hfe
      rw [← ht, hfil] at this
      exact this
    | true =>
      have := NumText.negFloat d w f e hd hw hf he hfe
      rw [← ht, hfil] at this
      exact this

theorem of_ident (s : String) : ofScan (.ident s.toList) = .ident s := by simp [ofScan]

theorem of_single : ofScan (.punct ['(']) = .lpar ∧ ofScan (.punct [')']) = .rpar ∧ ofScan (.punct ['[']) = .lbr ∧
    ofScan (.punct [']']) = .rbr ∧ ofScan (.punct [';']) = .semi ∧ ofScan (.punct [',']) = .comma ∧ ofScan (.punct ['@']) = .at := by
  decide +kernel

/-! ### Parts of a statement: the tokens and what they are a text of -/

theorem number_emit {n : Num} (h : IsNumber n) : ∃ ts, Pre Sep (num n) ts ∧ Program.ExprText (number n) (ts.map ofScan) :=
  ⟨_, pre_num (num_text h), .atom _ _ _⟩

theorem natural_emit {n : ℕ} (h : n < 2 ^ 63) : ∃ ts, Pre Sep (nat n) ts ∧ Program.ExprText (natural n) (ts.map ofScan) :=
  ⟨_, pre_nat h, .atom _ _ _⟩

theorem isName_pi : IsName "pi" := ⟨'p', ['i'], rfl, by decide, by decide, by decide +kernel⟩

theorem pre_pi {k : ℕ} (h : k < 2 ^ 63) :
    Pre Sep ("pi".toList ++ (['/'] ++ nat k)) [.ident "pi".toList, .punct ['/'], .num (.int k false)] := by
  obtain ⟨-, -, d, w, e, hd, -⟩ := nat_digits k
  have h1 : Pre (fun rest => ∃ d w, rest = d :: w ∧ isNum d = true) ['/'] [.punct ['/']] := by
    refine .one (.punct _ (by decide)) ?_
    rintro _ ⟨d, w, rfl, hd⟩
    have : ∀ n < 128, isNum (Char.ofNat n) = true → ∀ o ∈ ['/', '/'] :: ['/', '*'] :: operators, o.take 2 ≠ ['/'] ++ [Char.ofNat n] := by
      decide +kernel
    refine stops_op _ ?_ (by simp)
    have hn : d.toNat < 128 := by
      simp only [isNum, Bool.and_eq_true, decide_eq_true_eq] at hd
      omega
    have := this d.toNat hn
    rw [Char.ofNat_toNat] at this
    exact this hd
  exact (pre_name isName_pi).append (h1.append (pre_nat h) fun rest _ => ⟨d, w ++ rest, by rw [e]; rfl, hd⟩)
    fun rest _ => sep_single (by decide) _

theorem argument_emit {e : E} (h : IsArgument e) : ∃ ts, Pre Sep (expr e) ts ∧ Program.ExprText e (ts.map ofScan) := by
  rcases h with ⟨n, hn, rfl⟩ | ⟨neg, k, hk, rfl⟩
  · exact number_emit hn
  · have ht : ∀ s b, b ≤ 2 → Parse.Text s b (.bin .div (.atom (.name "pi")) (natural k) : E)
        (([.ident "pi".toList, .punct ['/'], .num (.int k false)] : List Tok).map fun t => (ofScan t).toP) := fun s b hb =>
      .bin s b .div (ts := [Parse.Tok.atom (Program.Atom.name "pi")]) hb (.atom _ _ _) (.atom _ _ _)
    cases neg with
    | false =>
      have he : expr (piOver false k) = "pi".toList ++ (['/'] ++ nat k) := by simp [piOver, expr, natural, number, num]
      refine ⟨_, he ▸ pre_pi hk, ?_⟩
      exact ht true 0 (by omega)
    | true =>
      have h1 : Pre (fun rest => ∃ r, rest = 'p' :: r) ['-'] [.punct ['-']] := by
        refine .one (.punct _ (by decide)) ?_
        rintro _ ⟨r, rfl⟩
        exact stops_op _ (by decide +kernel) (by decide)
      have he : expr (piOver true k) = ['-'] ++ ("pi".toList ++ (['/'] ++ nat k)) := by simp [piOver, expr, natural, number, num]
      have h2 := h1.append (pre_pi hk) fun rest _ => ⟨'i' :: (['/'] ++ nat k ++ rest), by simp⟩
      rw [← he] at h2
      exact ⟨_, h2, .un .neg (ht false 2 le_rfl)⟩

/-- Parts with commas between them. -/
theorem commas_emit {α : Type} {f : α → List Char} {p : α → List Tk → Prop} {l : List α} (hl : l ≠ [])
    (h : ∀ x ∈ l, ∃ ts, Pre Sep (f x) ts ∧ p x (ts.map ofScan)) :
    ∃ ts, Pre Sep (commas (l.map f)) ts ∧ Program.Sep true p l (ts.map ofScan) := by
  induction l with
  | nil => exact absurd rfl hl
  | cons a l ih =>
    obtain ⟨ts, h1, h2⟩ := h a (by simp)
    cases l with
    | nil => exact ⟨ts, h1, .one h2⟩
    | cons b l =>
      obtain ⟨us, h3, h4⟩ := ih (by simp) fun x hx => h x (List.mem_cons_of_mem _ hx)
      refine ⟨ts ++ ([Tok.punct [',']] ++ us), h1.append ((pre_single (c := ',') (by decide)).append h3 fun _ _ => trivial)
        fun rest _ => sep_single (by decide) _, ?_⟩
      have := Program.Sep.cons (loose := true) h2 h4
      simpa [of_single] using this

theorem sep_map {α β : Type} {g : α → β} {p : β → List Tk → Prop} {loose : Bool} {l : List α} {ts : List Tk}
    (h : Program.Sep loose (fun x => p (g x)) l ts) : Program.Sep loose p (l.map g) ts := by
  induction h with
  | one h => exact .one h
  | last hl h => exact .last hl h
  | cons h _ ih => exact .cons h ih

theorem ref_emit {o : Operand} (h : IsOperand o) : ∃ ts, Pre Sep (operand o) ts ∧ Program.RefText true (toRef o) (ts.map ofScan) := by
  cases o with
  | reg s => exact ⟨_, pre_name h, by simpa [of_ident, toRef] using Program.RefText.mk s .nil⟩
  | elem s i =>
    obtain ⟨ts, h1, h2⟩ := natural_emit h.2
    refine ⟨[.ident s.toList] ++ ([.punct ['[']] ++ (ts ++ [.punct [']']])), (pre_name h.1).append
      ((pre_single (c := '[') (by decide)).append (h1.append (pre_single (by decide)).any fun rest _ => sep_single (by decide) _)
        fun _ _ => trivial) fun rest _ => sep_single (by decide) _, ?_⟩
    have := Program.RefText.mk (loose := true) s (.cons (.mk (.one h2)) .nil)
    simpa [of_ident, of_single, toRef] using this

theorem arg_emit {o : Arg} (h : IsArg o) : ∃ ts, Pre Sep (arg o) ts ∧ Program.OperandText true (toOperand o) (ts.map ofScan) := by
  cases o with
  | op o =>
    obtain ⟨ts, h1, h2⟩ := ref_emit h
    exact ⟨ts, h1, .ref h2⟩
  | hw n =>
    obtain ⟨-, hv, -⟩ := nat_digits n
    have := Lex.hardware (nat n) (fun c hc => isNum_of_mem hc) (by rw [hv]; exact h)
    rw [hv] at this
    refine ⟨_, .one this fun rest hr => ?_, .hw _⟩
    have := hr.1
    simp only [isId, Bool.or_eq_false_iff] at this
    exact this.2

theorem operands_emit {l : List Arg} (hl : l ≠ []) (h : ∀ o ∈ l, IsArg o) :
    ∃ ts, Pre Sep (operands l) ts ∧ Program.Sep true (Program.OperandText true) (l.map toOperand) (ts.map ofScan) := by
  obtain ⟨ts, h1, h2⟩ := commas_emit (f := fun o => ' ' :: arg o) (p := fun o => Program.OperandText true (toOperand o)) hl
    fun o ho => by
      obtain ⟨ts, h1, h2⟩ := arg_emit (h o ho)
      exact ⟨ts, h1.space (by decide), h2⟩
  exact ⟨ts, h1, sep_map h2⟩

/-! ### Statements -/

theorem pre_done : Pre Any done [.punct [';']] := by
  intro rest us _ ht
  exact pre_single (c := ';') (by decide) ('\n' :: rest) us trivial (text_space (by decide) ht)

theorem sep_done (rest : List Char) : Sep (done ++ rest) := sep_single (by decide) _

theorem sep_args (l : List E) {r : List Char} (h : Sep r) : Sep (args l ++ r) := by
  cases l with
  | nil => exact h
  | cons e l => exact sep_single (by decide) _

theorem sep_operands (l : List Arg) {r : List Char} (h : Sep r) : Sep (operands l ++ r) := by
  match l with
  | [] => exact h
  | [a] => exact sep_single (by decide) _
  | a :: b :: l => exact sep_single (by decide) _

theorem mods_emit {l : List Mod} (h : ∀ m ∈ l, IsMod m) :
    ∃ ts, Pre Any (mods l) ts ∧ Program.Cat Program.ModifierText (l.map toMod) (ts.map ofScan) := by
  induction l with
  | nil => exact ⟨[], .nil, .nil⟩
  | cons m l ih =>
    obtain ⟨us, h1, h2⟩ := ih fun x hx => h x (List.mem_cons_of_mem _ hx)
    have hm := h m (by simp)
    cases m with
    | inv => exact hm.elim
    | pow => exact hm.elim
    | ctrl pos n =>
      have hk : (if pos then "ctrl" else "negctrl").toList ∈ keywords ∧ (if pos then "ctrl" else "negctrl").toList ≠ "#dim".toList ∧
          ofScan (.keyword (if pos then "ctrl" else "negctrl").toList) = .kw (if pos then .ctrl else .negctrl) := by
        cases pos <;> decide +kernel
      have hat : Pre Any " @ ".toList [.punct ['@']] := by
        have h3 : Pre Any ['@'] [.punct ['@']] := pre_single (by decide)
        intro rest us _ ht
        exact (h3.space (c := ' ') (by decide)) (' ' :: rest) us trivial (text_space (by decide) ht)
      have hend : Pre Any (" @ ".toList ++ mods l) ([Tok.punct ['@']] ++ us) := hat.append h1 fun _ _ => trivial
      have hsep : ∀ rest, Sep (" @ ".toList ++ mods l ++ rest) := fun rest => by
        simpa using sep_single (c := ' ') (by decide) ('@' :: ' ' :: (mods l ++ rest))
      by_cases hn : 1 < n
      · obtain ⟨ts, h3, h4⟩ := natural_emit hm.2
        refine ⟨[Tok.keyword (if pos then "ctrl" else "negctrl").toList] ++ (([Tok.punct ['(']] ++ (ts ++ [Tok.punct [')']])) ++ ([Tok.punct ['@']] ++ us)), ?_, ?_⟩
        · rw [mods, if_pos hn]
          refine (pre_keyword hk.1 hk.2.1).append ((((pre_single (c := '(') (by decide)).append
            (h3.append (pre_single (c := ')') (by decide)) fun rest _ => sep_single (by decide) _) fun _ _ => trivial)).append hend fun _ _ => trivial)
            fun rest _ => sep_single (by decide) _
        · have := Program.Cat.cons (.ctrls pos h4) h2
          simpa [toMod, hn, of_single, hk.2.2] using this
      · refine ⟨[Tok.keyword (if pos then "ctrl" else "negctrl").toList] ++ ([Tok.punct ['@']] ++ us), ?_, ?_⟩
        · rw [mods, if_neg hn]
          exact (pre_keyword hk.1 hk.2.1).append hend fun rest _ => hsep rest
        · have := Program.Cat.cons (.ctrl pos) h2
          simpa [toMod, hn, of_single, hk.2.2] using this

theorem args_emit {l : List E} (h : ∀ e ∈ l, IsArgument e) :
    ∃ ts, Pre Any (args l) ts ∧ Program.ArgsText true l (ts.map ofScan) := by
  cases l with
  | nil => exact ⟨[], .nil, .none⟩
  | cons e l =>
    obtain ⟨ts, h1, h2⟩ := commas_emit (f := expr) (p := Program.ExprText) (l := e :: l) (by simp) fun x hx => argument_emit (h x hx)
    refine ⟨[Tok.punct ['(']] ++ (ts ++ [Tok.punct [')']]), (pre_single (c := '(') (by decide)).append
      (h1.append (pre_single (c := ')') (by decide)) fun rest _ => sep_single (by decide) _) fun _ _ => trivial, ?_⟩
    have := Program.ArgsText.mk h2
    simpa [of_single] using this

theorem call_emit {c : Call E} (h : IsOut (.call c)) :
    ∃ ts, Pre Any (out (.call c)) ts ∧ Program.QuantumText true (toQuantum (.call c)) (ts.map ofScan) := by
  obtain ⟨h1, h2, h3, h4⟩ := h
  obtain ⟨tm, m1, m2⟩ := mods_emit h2
  obtain ⟨ta, a1, a2⟩ := args_emit h3
  have hname : ∃ t, Pre Sep c.name.toList [t] ∧ (ofScan t = .ident c.name ∧ c.operands ≠ [] ∨ ofScan t = .kw .gphase ∧ c.name = "gphase") := by
    rcases h1 with ⟨hn, ho⟩ | hn
    · exact ⟨_, pre_name hn, .inl ⟨of_ident _, ho⟩⟩
    · refine ⟨.keyword "gphase".toList, ?_, .inr ⟨by decide +kernel, hn⟩⟩
      rw [hn]
      exact pre_keyword (by decide +kernel) (by decide +kernel)
  obtain ⟨t, n1, n2⟩ := hname
  by_cases ho : c.operands = []
  · rcases n2 with ⟨_, hne⟩ | ⟨n2, hn⟩
    · exact absurd ho hne
    refine ⟨tm ++ ([t] ++ (ta ++ ([] ++ [Tok.punct [';']]))), ?_, ?_⟩
    · refine m1.append (n1.append (a1.append (Pre.append (A := Any) ?_ pre_done fun _ _ => trivial) fun _ _ => trivial)
        fun rest _ => ?_) fun _ _ => trivial
      · rw [ho]; exact .nil
      · rw [List.append_assoc, List.append_assoc]
        exact sep_args _ (sep_operands _ (sep_done _))
    · have := Program.QuantumText.global m2 a2
      simpa [toQuantum, ho, of_single, n2, hn] using this
  · obtain ⟨tq, q1, q2⟩ := operands_emit ho h4
    refine ⟨tm ++ ([t] ++ (ta ++ (tq ++ [Tok.punct [';']]))), ?_, ?_⟩
    · refine m1.append (n1.append (a1.append (q1.append pre_done fun rest _ => sep_done rest) fun _ _ => trivial)
        fun rest _ => ?_) fun _ _ => trivial
      rw [List.append_assoc, List.append_assoc]
      exact sep_args _ (sep_operands _ (sep_done _))
    · rcases n2 with ⟨n2, -⟩ | ⟨n2, hn⟩
      · have := Program.QuantumText.call c.name m2 a2 q2
        simpa [toQuantum, of_single, n2] using this
      · have := Program.QuantumText.gphase m2 a2 q2
        simpa [toQuantum, of_single, n2, hn] using this

theorem barrier_emit {qs : List Operand} (h : ∀ q ∈ qs, IsOperand q) :
    ∃ ts, Pre Any (barrier qs) ts ∧ Program.QuantumText true (toQuantum (.barrier qs)) (ts.map ofScan) := by
  have hk : Pre Sep "barrier".toList [.keyword "barrier".toList] := pre_keyword (by decide +kernel) (by decide +kernel)
  have ho : ofScan (.keyword ['b', 'a', 'r', 'r', 'i', 'e', 'r']) = .kw .barrier := by decide +kernel
  by_cases hq : qs = []
  · subst hq
    refine ⟨[Tok.keyword "barrier".toList] ++ [Tok.punct [';']], hk.append pre_done fun rest _ => sep_done rest, ?_⟩
    have := Program.QuantumText.empty (loose := true) rfl
    simpa [toQuantum, of_single, ho] using this
  · obtain ⟨tq, q1, q2⟩ := operands_emit (l := qs.map .op) (by simpa using hq) fun o ho => by
      obtain ⟨q, hm, rfl⟩ := List.mem_map.1 ho
      exact h q hm
    refine ⟨[Tok.keyword "barrier".toList] ++ (tq ++ [Tok.punct [';']]), hk.append (q1.append pre_done fun rest _ => sep_done rest)
      fun rest _ => ?_, ?_⟩
    · rw [List.append_assoc]
      exact sep_operands _ (sep_done _)
    · have := Program.QuantumText.barrier q2
      simpa [toQuantum, of_single, ho, List.map_map, Function.comp_def, toOperand] using this

theorem pre_equals : Pre (fun rest => ∃ r, rest = 'm' :: r) " = ".toList [.punct ['=']] := by
  rintro _ us ⟨r, rfl⟩ ht
  have h : Pre (fun rest => ∃ r, rest = ' ' :: r) ['='] [.punct ['=']] := by
    refine .one (.punct _ (by decide)) ?_
    rintro _ ⟨r, rfl⟩
    exact stops_op _ (by decide +kernel) (by decide)
  exact text_space (c := ' ') (by decide) (h (' ' :: 'm' :: r) us ⟨_, rfl⟩ (text_space (by decide) ht))

theorem pre_arrow : Pre Any " -> ".toList [.punct ['-', '>']] := by
  intro rest us _ ht
  have h : Pre (fun rest => ∃ r, rest = ' ' :: r) ['-', '>'] [.punct ['-', '>']] := by
    refine .one (.punct _ (by decide)) ?_
    rintro _ ⟨r, rfl⟩
    exact stops_op _ (by decide +kernel) (by decide)
  exact text_space (c := ' ') (by decide) (h (' ' :: rest) us ⟨_, rfl⟩ (text_space (by decide) ht))

theorem of_keywords : ofScan (.keyword "measure".toList) = .kw .measure ∧ ofScan (.keyword "reset".toList) = .kw .reset ∧
    ofScan (.punct ['=']) = .asg .set ∧ ofScan (.punct ['-', '>']) = .arrow := by
  decide +kernel

theorem pre_measure : Pre Sep "measure".toList [.keyword "measure".toList] := pre_keyword (by decide +kernel) (by decide +kernel)

theorem stmt_emit {qasm3 : Bool} {s : Stmt} (h : IsStmt s) :
    ∃ ts, Pre Any (stmt qasm3 s) ts ∧ Program.SimpleText true (toStatement (.stmt s)) (ts.map ofScan) := by
  cases s with
  | barrier qs =>
    obtain ⟨ts, h1, h2⟩ := barrier_emit h
    exact ⟨ts, h1, .quantum h2⟩
  | reset q =>
    obtain ⟨tq, q1, q2⟩ := ref_emit (show IsOperand q from h)
    refine ⟨[Tok.keyword "reset".toList] ++ (tq ++ [Tok.punct [';']]), (pre_keyword (by decide +kernel) (by decide +kernel)).append
      ((q1.space (by decide)).append pre_done fun rest _ => sep_done rest) fun rest _ => sep_single (by decide) _, ?_⟩
    have := Program.SimpleText.quantum (.reset (.ref q2))
    simpa only [toStatement, toDecl, toQuantum, List.map_append, List.map_cons, List.map_nil, of_keywords, of_single, List.cons_append, List.nil_append] using this
  | measure t s =>
    obtain ⟨tq, q1, q2⟩ := ref_emit h.2
    obtain ⟨tc, c1, c2⟩ := ref_emit h.1
    cases qasm3 with
    | true =>
      refine ⟨tc ++ ([Tok.punct ['=']] ++ ([Tok.keyword "measure".toList] ++ (tq ++ [Tok.punct [';']]))), ?_, ?_⟩
      · refine c1.append (pre_equals.append (pre_measure.append ((q1.space (c := ' ') (by decide)).append pre_done
          fun rest _ => sep_done rest) fun rest _ => sep_single (by decide) _) fun rest _ => ⟨_, by simp; rfl⟩) fun rest _ => ?_
        simpa using sep_single (c := ' ') (by decide) _
      · have := Program.SimpleText.assign .set c2 (.measure (.ref q2))
        simpa only [toStatement, toDecl, toQuantum, List.map_append, List.map_cons, List.map_nil, of_keywords, of_single, List.cons_append, List.nil_append] using this
    | false =>
      refine ⟨[Tok.keyword "measure".toList] ++ (tq ++ ([Tok.punct ['-', '>']] ++ (tc ++ [Tok.punct [';']]))), ?_, ?_⟩
      · refine pre_measure.append ((q1.space (c := ' ') (by decide)).append (pre_arrow.append (c1.append pre_done
          fun rest _ => sep_done rest) fun _ _ => trivial) fun rest _ => ?_) fun rest _ => sep_single (by decide) _
        simpa using sep_single (c := ' ') (by decide) _
      · have := Program.SimpleText.measure (.ref q2) c2
        simpa only [toStatement, toDecl, toQuantum, List.map_append, List.map_cons, List.map_nil, of_keywords, of_single, List.cons_append, List.nil_append] using this

theorem line_emit {qasm3 : Bool} {l : Line} (h : IsLine l) :
    ∃ ts, Pre Any (line qasm3 l) ts ∧ Program.SimpleText true (toStatement l) (ts.map ofScan) := by
  cases l with
  | stmt s => exact stmt_emit h
  | out o =>
    cases o with
    | call c =>
      obtain ⟨ts, h1, h2⟩ := call_emit h
      exact ⟨ts, h1, .quantum h2⟩
    | barrier qs =>
      obtain ⟨ts, h1, h2⟩ := barrier_emit h
      exact ⟨ts, h1, .quantum h2⟩

theorem decl_emit {qasm3 quantum : Bool} {r : Reg} (h : IsReg r) :
    ∃ ts, Pre Any (decl qasm3 quantum r) ts ∧ Program.SimpleText true (toDecl quantum r) (ts.map ofScan) := by
  obtain ⟨tn, n1, n2⟩ := natural_emit h.2
  cases qasm3 with
  | true =>
    have hk : (if quantum then "qubit" else "bit").toList ∈ keywords ∧ (if quantum then "qubit" else "bit").toList ≠ "#dim".toList ∧
        ofScan (.keyword (if quantum then "qubit" else "bit").toList) = .ty (if quantum then .qubit else .bit) := by
      cases quantum <;> decide +kernel
    refine ⟨[Tok.keyword (if quantum then "qubit" else "bit").toList] ++ ([Tok.punct ['[']] ++ (tn ++ ([Tok.punct [']']] ++
      ([Tok.ident r.name.toList] ++ [Tok.punct [';']])))), ?_, ?_⟩
    · exact (pre_keyword hk.1 hk.2.1).append ((pre_single (c := '[') (by decide)).append (n1.append ((pre_single (c := ']') (by decide)).append
        (((pre_name h.1).space (c := ' ') (by decide)).append pre_done fun rest _ => sep_done rest) fun _ _ => trivial)
        fun rest _ => sep_single (by decide) _) fun _ _ => trivial) fun rest _ => sep_single (by decide) _
    · have := Program.SimpleText.decl (Program.DeclText.new (loose := true) (const := false) (k := if quantum then .qubit else .bit) r.name
        (by cases quantum <;> rfl) (by cases quantum <;> simp [Program.TyKw.sized]) (.some n2) .none)
      have ht : (if quantum then Program.TyKw.qubit else .bit).type (some (natural r.size)) =
          if quantum then .qubit (some (natural r.size)) else .bit (some (natural r.size)) := by cases quantum <;> rfl
      rw [ht] at this
      simpa only [toStatement, toDecl, toQuantum, List.map_append, List.map_cons, List.map_nil, hk.2.2, of_single, of_ident, List.cons_append, List.nil_append,
        List.append_assoc] using this
  | false =>
    have hk : (if quantum then "qreg" else "creg").toList ∈ keywords ∧ (if quantum then "qreg" else "creg").toList ≠ "#dim".toList ∧
        ofScan (.keyword (if quantum then "qreg" else "creg").toList) = .ty (if quantum then .qreg else .creg) := by
      cases quantum <;> decide +kernel
    refine ⟨[Tok.keyword (if quantum then "qreg" else "creg").toList] ++ ([Tok.ident r.name.toList] ++ ([Tok.punct ['[']] ++ (tn ++
      ([Tok.punct [']']] ++ [Tok.punct [';']])))), ?_, ?_⟩
    · exact (pre_keyword hk.1 hk.2.1).append (((pre_name h.1).append ((pre_single (c := '[') (by decide)).append (n1.append
        ((pre_single (c := ']') (by decide)).append pre_done fun _ _ => trivial) fun rest _ => sep_single (by decide) _)
        fun _ _ => trivial) fun rest _ => sep_single (by decide) _).space (c := ' ') (by decide)) fun rest _ => sep_single (by decide) _
    · have := Program.SimpleText.decl (Program.DeclText.old (loose := true) (const := false) (k := if quantum then .qreg else .creg) r.name
        (by cases quantum <;> rfl) (.some n2) .none)
      have ht : (if quantum then Program.TyKw.qreg else .creg).type (some (natural r.size)) =
          if quantum then .qubit (some (natural r.size)) else .bit (some (natural r.size)) := by cases quantum <;> rfl
      rw [ht] at this
      simpa only [toStatement, toDecl, toQuantum, List.map_append, List.map_cons, List.map_nil, hk.2.2, of_single, of_ident, List.cons_append, List.nil_append,
        List.append_assoc] using this

/-! ### The whole text -/

theorem lines_emit {α : Type} {f : α → List Char} {g : α → Statement} (l : List α)
    (h : ∀ x ∈ l, ∃ ts, Pre Any (f x) ts ∧ Program.SimpleText true (g x) (ts.map ofScan)) :
    ∃ ts, Pre Any (l.flatMap f) ts ∧ Program.Cat (Program.SimpleText true) (l.map g) (ts.map ofScan) := by
  induction l with
  | nil => exact ⟨[], .nil, .nil⟩
  | cons x l ih =>
    obtain ⟨t1, a1, b1⟩ := h x (by simp)
    obtain ⟨t2, a2, b2⟩ := ih fun y hy => h y (by simp [hy])
    refine ⟨t1 ++ t2, a1.append a2 fun _ _ => trivial, ?_⟩
    rw [List.map_append]
    exact .cons b1 b2

theorem cat_append {α : Type} {p : α → List Tk → Prop} {l l' : List α} {ts ts' : List Tk} (h : Program.Cat p l ts) (h' : Program.Cat p l' ts') :
    Program.Cat p (l ++ l') (ts ++ ts') := by
  induction h with
  | nil => exact h'
  | cons hx _ ih =>
    rw [List.append_assoc]
    exact .cons hx ih

theorem program_cat {F : Program.Files} {l : List Statement} {ts : List Tk} (h : Program.Cat (Program.SimpleText true) l ts) :
    Program.ProgramText true F false l ts := by
  induction h with
  | nil => exact .nil _
  | cons hx _ ih => exact .cons false true (.simple true hx) ih

/-- The statements of the included file: none of stdgates.inc, and the gates of qelib1.inc. -/
def Included (F : Program.Files) (qasm3 : Bool) (inc : List Statement) : Prop :=
  if qasm3 then F.disk "stdgates.inc" = none ∧ inc = []
  else F.disk "qelib1.inc" = none ∧ Program.Cat (Program.SimpleText true) inc F.qelib

theorem pre_str {w : List Char} (h : '"' ∉ w) : Pre Any ('"' :: w ++ ['"']) [.str w] :=
  .one (.str '"' w (by simp) h) fun _ _ => trivial

theorem pre_version (qasm3 : Bool) : Pre Any (version qasm3) [.keyword "OPENQASM".toList,
    .num (.float (if qasm3 then "3.0" else "2.0").toList false), .punct [';'], .keyword "include".toList,
    .str (if qasm3 then "stdgates.inc" else "qelib1.inc").toList, .punct [';']] := by
  have hn : Pre Sep (if qasm3 then "3.0" else "2.0").toList [.num (.float (if qasm3 then "3.0" else "2.0").toList false)] := by
    refine pre_num (num_text (n := .float _ false) ?_)
    cases qasm3 with
    | true => exact ⟨'3', [], ['.', '0'], [], rfl, by decide, by simp [IsDigits], .inr ⟨nat 0, rfl, (nat_digits 0).1⟩, .inl rfl, by simp, by decide⟩
    | false => exact ⟨'2', [], ['.', '0'], [], rfl, by decide, by simp [IsDigits], .inr ⟨nat 0, rfl, (nat_digits 0).1⟩, .inl rfl, by simp, by decide⟩
  have hs : Pre Any ('"' :: (if qasm3 then "stdgates.inc" else "qelib1.inc").toList ++ ['"'])
      [.str (if qasm3 then "stdgates.inc" else "qelib1.inc").toList] := pre_str (by cases qasm3 <;> decide)
  have h := (pre_keyword (w := "OPENQASM".toList) (by decide +kernel) (by decide +kernel)).append ((hn.space (c := ' ') (by decide)).append
    (pre_done.append ((pre_keyword (w := "include".toList) (by decide +kernel) (by decide +kernel)).append ((hs.space (c := ' ') (by decide)).append
      pre_done fun _ _ => trivial) fun rest _ => sep_single (c := ' ') (by decide) _) fun _ _ => trivial) fun rest _ => sep_done _)
    fun rest _ => sep_single (c := ' ') (by decide) _
  cases qasm3 <;> exact h

theorem of_version : ofScan (.keyword "OPENQASM".toList) = .kw .openqasm ∧ ofScan (.keyword "include".toList) = .kw .incl := by
  decide +kernel

theorem version_text {F : Program.Files} {qasm3 : Bool} {inc l : List Statement} {ts : List Tk} (hF : Included F qasm3 inc)
    (hl : Program.Cat (Program.SimpleText true) l ts) (hne : inc ++ l ≠ []) :
    Program.ProgramText true F true (.version (if qasm3 then "3.0" else "2.0").toList false :: (inc ++ l))
      (.kw .openqasm :: .lit (.num (.float (if qasm3 then "3.0" else "2.0").toList false)) :: .semi :: .kw .incl ::
        .str (if qasm3 then "stdgates.inc" else "qelib1.inc") :: .semi :: ts) := by
  refine .version _ _ ?_
  have key : ∀ ts', Program.Cat (Program.SimpleText true) (inc ++ l) ts' → F.resolve (if qasm3 then "stdgates.inc" else "qelib1.inc") ts = some ts' →
      Program.ProgramText true F false (inc ++ l) (.kw .incl :: .str (if qasm3 then "stdgates.inc" else "qelib1.inc") :: .semi :: ts) := by
    intro ts' h hr
    revert h hne
    generalize inc ++ l = m
    intro hne h
    cases h with
    | nil => exact absurd rfl hne
    | cons hx hm => exact .incl false true _ hr (.simple true hx) (program_cat hm)
  cases qasm3 with
  | true =>
    obtain ⟨h1, rfl⟩ := hF
    refine key ts hl ?_
    simp [Program.Files.resolve, h1]
  | false =>
    obtain ⟨h1, h2⟩ := hF
    refine key _ (cat_append h2 hl) ?_
    simp [Program.Files.resolve, h1]

theorem text_line_none {c : Char} (hc : c ≠ '\n' ∧ c ≠ '\x00') (ht : classify (Scanner.line c []) = none) {rest : List Char}
    {ts : List Tok} (hr : Text rest ts) : Text (Scanner.line c [] ++ '\n' :: rest) ts := by
  have hb : ∀ d ∈ [' ', c], d ≠ '\n' ∧ d ≠ '\x00' := by
    simp only [List.mem_cons, List.not_mem_nil, or_false]
    rintro d (rfl | rfl)
    · decide
    · exact hc
  cases hr with
  | done _ hg => exact .done _ (.line [' ', c] _ hb ht hg)
  | doneLine g b hg hb' hcl => exact .doneLine ('/' :: '/' :: [' ', c] ++ '\n' :: g) b (.line [' ', c] g hb ht hg) hb' hcl
  | token g w rest t ts hg hl hs hr => exact .token ('/' :: '/' :: [' ', c] ++ '\n' :: g) w rest t ts (.line [' ', c] g hb ht hg) hl hs hr
  | comment g b rest t ts hg hb' hcl hr => exact .comment ('/' :: '/' :: [' ', c] ++ '\n' :: g) b rest t ts (.line [' ', c] g hb ht hg) hb' hcl hr

/-- The comments with the layouts; none if there are no qubits. -/
def layouts (init outp : PMap) : List Statement :=
  (if printed init init = [] then [] else [.layout (Scanner.line 'i' (printed init init))]) ++
  if printed init outp = [] then [] else [.outputs (Scanner.line 'o' (printed init outp))]

theorem header_emit (init outp : PMap) {rest : List Char} {us : List Tok} (h : Text rest us) {F : Program.Files} {l : List Statement}
    (hl : Program.ProgramText true F true l (us.map ofScan)) :
    ∃ ts, Text (header init outp ++ rest) ts ∧ Program.ProgramText true F true (layouts init outp ++ l) (ts.map ofScan) := by
  have ho : ∃ ts, Text (Scanner.line 'o' (printed init outp) ++ '\n' :: rest) ts ∧ Program.ProgramText true F true
      ((if printed init outp = [] then [] else [Statement.outputs (Scanner.line 'o' (printed init outp))]) ++ l) (ts.map ofScan) := by
    by_cases hn : printed init outp = []
    · rw [if_pos hn, hn]
      exact ⟨us, text_line_none (by decide) (by decide +kernel) h, hl⟩
    · rw [if_neg hn]
      exact ⟨_, text_line (by decide) (classify_o hn) h, .cons true true (.simple true (.outputs _)) hl⟩
  obtain ⟨ts, h1, h2⟩ := ho
  have e : header init outp ++ rest = Scanner.line 'i' (printed init init) ++ '\n' :: (Scanner.line 'o' (printed init outp) ++ '\n' :: rest) := by
    simp [header]
  rw [e, layouts, List.append_assoc]
  by_cases hn : printed init init = []
  · rw [if_pos hn, hn]
    exact ⟨ts, text_line_none (by decide) (by decide +kernel) h1, h2⟩
  · rw [if_neg hn]
    exact ⟨_, text_line (by decide) (classify_i hn) h1, .cons true true (.simple true (.layout _)) h2⟩

/-- The statements of a circuit. -/
def statements (init outp : PMap) (qregs cregs : List Reg) (ls : List Line) (qasm3 : Bool) (inc : List Statement) : List Statement :=
  layouts init outp ++ .version (if qasm3 then "3.0" else "2.0").toList false ::
    (inc ++ (qregs.map (toDecl true) ++ (cregs.map (toDecl false) ++ ls.map toStatement)))

theorem circuit_emit {F : Program.Files} {qasm3 : Bool} {inc : List Statement} (hF : Included F qasm3 inc) (init outp : PMap)
    {qregs cregs : List Reg} {ls : List Line} (hq : ∀ r ∈ qregs, IsReg r) (hc : ∀ r ∈ cregs, IsReg r) (hl : ∀ l ∈ ls, IsLine l)
    (hne : inc ++ (qregs.map (toDecl true) ++ (cregs.map (toDecl false) ++ ls.map toStatement)) ≠ []) :
    ∃ ts, Text (circuit qasm3 init outp qregs cregs ls) ts ∧
      Program.ProgramText true F true (statements init outp qregs cregs ls qasm3 inc) (ts.map ofScan) := by
  obtain ⟨t1, a1, b1⟩ := lines_emit (f := decl qasm3 true) (g := toDecl true) qregs fun r hr => decl_emit (hq r hr)
  obtain ⟨t2, a2, b2⟩ := lines_emit (f := decl qasm3 false) (g := toDecl false) cregs fun r hr => decl_emit (hc r hr)
  obtain ⟨t3, a3, b3⟩ := lines_emit (f := line qasm3) (g := toStatement) ls fun l h => line_emit (hl l h)
  have hp := a1.append (a2.append a3 fun _ _ => trivial) fun _ _ => trivial
  have ht := (pre_version qasm3).append hp (fun _ _ => trivial) [] [] trivial (.done [] .nil)
  have hs := version_text hF (cat_append b1 (cat_append b2 b3)) hne
  refine header_emit init outp (by simpa only [List.append_nil] using ht) ?_
  have e : ∀ s : String, ofScan (.str s.toList) = .str s := fun s => by simp [ofScan]
  have e' : ∀ n, ofScan (.num n) = .lit (.num n) := fun _ => rfl
  simpa only [List.map_append, List.map_cons, List.map_nil, of_version, of_single, e, e', List.cons_append, List.nil_append] using hs

end MQT.QASM.Print
