/-
C102: programs are parsed as written.
-/
import Verif.QASM.ProgramProof
import Verif.QASM.ScannerProof

set_option autoImplicit false

namespace MQT.QASM.Program

open MQT.QASM.Parse (BOp Fn Ex Cmp)

/-- **C102.** A text of a program is read as the program.
Missing from C102: an `include` directly after another one, or with nothing after it (`c102_include_twice`,
`c102_include_last`); a gate with empty parentheses for its parameters (`c102_gate_parentheses`), a version without a point
(`c102_version`), a measurement without a result (`c102_measure`); an index inside of an expression, which is not modelled;
and the expressions of `c62_wrong`. -/
theorem c102_program_partial {loose : Bool} {F : Files} {l : List Statement} {ts : List Tk} (h : ProgramText loose F true l ts) :
    ∃ N, ∀ n ≥ N, program F n true ts = some l := program_text h

/-- **C102.** Of the texts without `include` nothing else is read; only that a comma may come after the last of a list, and
that an index and the list of the operands of a barrier may be empty. -/
theorem c102_exact (F : Files) (l : List Statement) (ts : List Tk) (hi : .kw .incl ∉ ts) :
    (∃ n, program F n true ts = some l) ↔ ProgramText true F true l ts :=
  ⟨fun ⟨n, h⟩ => program_sound F n true l ts hi h, fun h => (program_text h).imp fun N hN => hN N le_rfl⟩

/-- **C102.** So no text is one of two programs. -/
theorem c102_unambiguous {loose : Bool} {F : Files} {l l' : List Statement} {ts : List Tk} (h : ProgramText loose F true l ts)
    (h' : ProgramText loose F true l' ts) : l = l' := by
  obtain ⟨N, hN⟩ := program_text h
  obtain ⟨N', hN'⟩ := program_text h'
  have := hN _ (le_max_left N N')
  rw [hN' _ (le_max_right N N')] at this
  exact (Option.some.inj this).symm

/-- **C102.** An `else` belongs to the last `if` before it that it can belong to: with any condition and any statements
without others inside. -/
theorem c102_else (F : Files) {c d : E} {s s' : Statement} {tc td ts ts' : List Tk} (hc : ExprText c tc) (hd : ExprText d td)
    (hs : SimpleText false s ts) (hs' : SimpleText false s' ts') :
    ∃ N, ∀ n ≥ N, program F n true (.kw .cond :: .lpar :: (tc ++ .rpar :: .kw .cond :: .lpar :: (td ++ .rpar :: (ts ++ .kw .els :: ts')))) =
      some [.ite c [.ite d [s] [s']] []] := by
  refine c102_program_partial (loose := false) ?_
  have h := StText.cond false hc (.single (.condElse hd (.single (.simple true hs)) (.single (.simple false hs'))))
  have := ProgramText.cons (F := F) true false h (.nil _)
  rwa [List.append_nil] at this

/-- The two steps: the scanner and the parser. -/
def parseText (F : Files) (n : ℕ) (text : List Char) : Option (List Statement) :=
  match Scanner.scan text with
  | .ok ts => program F n true (ts.map ofScan)
  | _ => none

/-- **C102.** From the characters on: with any spaces and comments between the tokens. -/
theorem c102_text_partial {loose : Bool} {F : Files} {l : List Statement} {text : List Char} {ts : List Scanner.Tok}
    (h : Scanner.Text text ts) (hp : ProgramText loose F true l (ts.map ofScan)) : ∃ N, ∀ n ≥ N, parseText F n text = some l := by
  obtain ⟨N, hN⟩ := program_text hp
  exact ⟨N, fun n hn => by rw [parseText, Scanner.scan, Scanner.scanF_text h _ (by omega)]; exact hN n hn⟩

/-- **C102.** The texts of the keywords and of the symbols are scanned as tokens of their kinds, and no two texts as the same. -/
theorem c102_kinds :
    (∀ p ∈ keywordKinds ++ symbolKinds, ∃ t, Scanner.scan p.1.toList = .ok [t] ∧ ofScan t = p.2) ∧
    ((keywordKinds ++ symbolKinds).map Prod.snd).Nodup ∧ ((keywordKinds ++ symbolKinds).map Prod.fst).Nodup := by
  refine ⟨?_, by decide +kernel, by decide +kernel⟩
  have key : ∀ p ∈ keywordKinds ++ symbolKinds, (match Scanner.scan p.1.toList with | .ok [t] => decide (ofScan t = p.2) | _ => false) = true := by
    decide +kernel
  intro p hp
  have := key p hp
  split at this
  · next t h => exact ⟨t, h, of_decide_eq_true this⟩
  · cases this

/-- **C102.** An `include` of a file that is not there, nor one of the two known, is an error. -/
theorem c102_include_missing (F : Files) {f : String} (hF : F.disk f = none) (h1 : f ≠ "stdgates.inc") (h2 : f ≠ "qelib1.inc")
    (rest : List Tk) (n : ℕ) (a : Bool) : program F n a (.kw .incl :: .str f :: .semi :: rest) = none := by
  cases n with
  | zero => rfl
  | succ n =>
    cases n with
    | zero => rfl
    | succ n => simp [program, statement, skipInclude, Files.resolve, hF, h1, h2]

/-- **C102.** An `include` without the name of a file and a semicolon is an error. -/
theorem c102_include_malformed (F : Files) {ts : List Tk} (h : ∀ f r, ts ≠ .str f :: .semi :: r) (n : ℕ) (a : Bool) :
    program F n a (.kw .incl :: ts) = none := by
  cases n with
  | zero => rfl
  | succ n =>
    cases n with
    | zero => rfl
    | succ n =>
      have : skipInclude F (.kw .incl :: ts) = none := by
        unfold skipInclude
        split
        · next f r e => simp only [List.cons.injEq, true_and] at e; exact absurd e (h f r)
        · rfl
        · next h1 h2 => exact absurd rfl (h2 ts)
      simp [program, statement, this]

/-! ### What is not read -/

/-- **C102 fails.** Two `include` statements in a row are an error if the first is that of the standard gates, whatever
the second is and whatever comes after. -/
theorem c102_include_twice (F : Files) (hF : F.disk "stdgates.inc" = none) (f : String) (rest : List Tk) (n : ℕ) (a : Bool) :
    program F n a (.kw .incl :: .str "stdgates.inc" :: .semi :: .kw .incl :: .str f :: .semi :: rest) = none := by
  cases n with
  | zero => rfl
  | succ n =>
    cases n with
    | zero => rfl
    | succ n => simp [program, statement, skipInclude, Files.resolve, hF, statementOf, quantum]

/-- **C102 fails.** So is the `include` of the standard gates at the end of the program. -/
theorem c102_include_last (F : Files) (hF : F.disk "stdgates.inc" = none) (n : ℕ) (a : Bool) :
    program F n a [.kw .incl, .str "stdgates.inc", .semi] = none := by
  cases n with
  | zero => rfl
  | succ n =>
    cases n with
    | zero => rfl
    | succ n => simp [program, statement, skipInclude, Files.resolve, hF, statementOf, quantum]

/-- **C102 fails.** So is a file that starts with an `include`. -/
theorem c102_include_nested (F : Files) (f : String) (file : List Tk) (hf : F.disk f = some (.kw .incl :: file))
    (rest : List Tk) (n : ℕ) (a : Bool) : program F n a (.kw .incl :: .str f :: .semi :: rest) = none := by
  cases n with
  | zero => rfl
  | succ n =>
    cases n with
    | zero => rfl
    | succ n => simp [program, statement, skipInclude, Files.resolve, hf, statementOf, quantum]

/-- **C102 fails.** A gate with empty parentheses is an error. -/
theorem c102_gate_parentheses (F : Files) (g : String) (rest : List Tk) (n : ℕ) (a : Bool) :
    program F n a (.kw .gate :: .ident g :: .lpar :: .rpar :: rest) = none := by
  cases n with
  | zero => rfl
  | succ n =>
    cases n with
    | zero => rfl
    | succ n => simp [program, statement, skipInclude, statementOf, gateDefinition, gateHead, ident, params, idents]

/-- **C102 fails.** A version that is an integer is an error. -/
theorem c102_version (F : Files) (v : ℤ) (neg : Bool) (rest : List Tk) (n : ℕ) (a : Bool) :
    program F n a (.kw .openqasm :: .lit (.num (.int v neg)) :: .semi :: rest) = none := by
  cases n with
  | zero => rfl
  | succ n => cases a <;> simp [program, version]

/-- **C102 fails.** A measurement whose result is not used is an error. -/
theorem c102_measure (F : Files) {q : Operand} {ts : List Tk} (h : OperandText false q ts) (rest : List Tk) (n : ℕ) (a : Bool) :
    program F n a (.kw .measure :: (ts ++ .semi :: rest)) = none := by
  cases n with
  | zero => rfl
  | succ n =>
    cases n with
    | zero => rfl
    | succ n =>
      have := operand_text h (.semi :: rest) (by simp)
      simp [program, statement, skipInclude, statementOf, measure, this, expect]

section examples

namespace Demo

def noFiles : Files := ⟨fun _ => none, []⟩

def zero : E := .atom (.lit (.num (.int 0 false)))
def one : E := .atom (.lit (.num (.int 1 false)))
def q0 : Operand := .ref ⟨"q", [[zero]]⟩
def q1 : Operand := .ref ⟨"q", [[one]]⟩

set_option maxRecDepth 20000 in
/-- A program with most of the statements. -/
example : parseText noFiles 60 ("OPENQASM 3.0; include \"stdgates.inc\"; qubit[2] q; creg c[1];\n" ++
    "gate g(a, b) r, s { rx(a * b) r; barrier r, s; }\n" ++
    "negctrl(1) @ inv @ g(1, 0) q[0], q[1]; gphase(1); // a comment\n" ++
    "if (c == 1) { x q[0]; reset q; } else c[0] = measure q[1]; measure $1 -> c;").toList =
  some [.version "3.0".toList false,
    .decl false (.qubit (some (.atom (.lit (.num (.int 2 false)))))) "q" none, .decl false (.bit (some one)) "c" none,
    .gate "g" ["a", "b"] ["r", "s"] [.call "rx" [] [.bin .mul (.atom (.name "a")) (.atom (.name "b"))] [.ref ⟨"r", []⟩],
      .barrier [.ref ⟨"r", []⟩, .ref ⟨"s", []⟩]] false,
    .quantum (.call "g" [.ctrl false (some one), .inv] [one, zero] [q0, q1]), .quantum (.call "gphase" [] [one] []),
    .ite (.bin (.cmp .eq) (.atom (.name "c")) one) [.quantum (.call "x" [] [] [q0]), .quantum (.reset (.ref ⟨"q", []⟩))]
      [.assign .set ⟨"c", [[zero]]⟩ (.measure q1)],
    .assign .set ⟨"c", []⟩ (.measure (.hw 1))] := by
  rfl

/-- The text of an `if` is one by `StText`, and the `else` belongs to the inner one. -/
example : parseText noFiles 60 "if (a) if (b) x q; else y q;".toList =
    some [.ite (.atom (.name "a")) [.ite (.atom (.name "b")) [.quantum (.call "x" [] [] [.ref ⟨"q", []⟩])] [.quantum (.call "y" [] [] [.ref ⟨"q", []⟩])]] []] := by
  rfl

def eight : E := .atom (.lit (.num (.int 8 false)))

set_option maxRecDepth 20000 in
/-- All types, with a size or not. -/
example : parseText noFiles 60 ("int[8] a; uint[8] b; bit[8] c; qubit[8] d; float[8] e; angle[8] f; bool g; duration h; creg i[8]; qreg j[8];" ++
    "int k; uint l; bit m; qubit n; float o; angle p; creg r; qreg s;").toList =
  some [.decl false (.int (some eight)) "a" none, .decl false (.uint (some eight)) "b" none, .decl false (.bit (some eight)) "c" none,
    .decl false (.qubit (some eight)) "d" none, .decl false (.float (some eight)) "e" none, .decl false (.angle (some eight)) "f" none,
    .decl false .bool "g" none, .decl false .duration "h" none, .decl false (.bit (some eight)) "i" none, .decl false (.qubit (some eight)) "j" none,
    .decl false (.int none) "k" none, .decl false (.uint none) "l" none, .decl false (.bit none) "m" none, .decl false (.qubit none) "n" none,
    .decl false (.float none) "o" none, .decl false (.angle none) "p" none, .decl false (.bit none) "r" none, .decl false (.qubit none) "s" none] := by
  rfl

/-- No size for the types without one, and the size at its place. -/
example : (["bool[8] g;", "duration[8] h;", "creg[8] i;", "qreg[8] j;", "int a[8];", "uint b[8];", "bit c[8];", "qubit d[8];", "float e[8];",
    "angle f[8];"].all fun t => (parseText noFiles 20 t.toList).isNone) = true := by
  decide +kernel

/-- The two complements. -/
example : parseText noFiles 60 "x(~a, !a) q;".toList =
    some [.quantum (.call "x" [] [.un .bnot (.atom (.name "a")), .un .lnot (.atom (.name "a"))] [.ref ⟨"q", []⟩])] := by
  rfl

/-- The comments of the layouts. -/
example : parseText noFiles 60 "// i 0 1\n// o 1 0\nreset q;".toList =
    some [.layout "// i 0 1".toList, .outputs "// o 1 0".toList, .quantum (.reset (.ref ⟨"q", []⟩))] := by
  rfl

/-- The version may come after the comments of the layouts, but not after a statement. -/
example : parseText noFiles 60 "// i 0\n// o 0\nOPENQASM 3.0; reset q;".toList =
      some [.layout "// i 0".toList, .outputs "// o 0".toList, .version "3.0".toList false, .quantum (.reset (.ref ⟨"q", []⟩))] ∧
    (parseText noFiles 60 "reset q; OPENQASM 3.0;".toList).isNone = true ∧
    (parseText noFiles 60 "// i 0\nreset q;\n// o 0\nOPENQASM 3.0;".toList).isNone = true := by
  refine ⟨rfl, ?_, ?_⟩ <;> decide +kernel

/-- The commas that should not be there. -/
example : parseText noFiles 60 "g(1,) q, r,; barrier;".toList =
    some [.quantum (.call "g" [] [one] [.ref ⟨"q", []⟩, .ref ⟨"r", []⟩]), .quantum (.barrier [])] := by
  rfl

/-- What the circuit without qubits is exported as (QuantumComputation.cpp 633-702) is not read. -/
example (n : ℕ) : parseText noFiles n "// i\n// o\nOPENQASM 3.0;\ninclude \"stdgates.inc\";\n".toList = none := by
  have hs : Scanner.scan "// i\n// o\nOPENQASM 3.0;\ninclude \"stdgates.inc\";\n".toList =
      .ok [.keyword "OPENQASM".toList, .num (.float "3.0".toList false), .punct [';'], .keyword "include".toList, .str "stdgates.inc".toList, .punct [';']] := by
    decide +kernel
  rw [parseText, hs]
  have hm : List.map ofScan [.keyword "OPENQASM".toList, .num (.float "3.0".toList false), .punct [';'], .keyword "include".toList, .str "stdgates.inc".toList, .punct [';']] =
      [.kw .openqasm, .lit (.num (.float "3.0".toList false)), .semi, .kw .incl, .str "stdgates.inc", .semi] := by decide +kernel
  simp only
  rw [hm]
  cases n with
  | zero => rfl
  | succ n => simp [program, version, c102_include_last noFiles rfl n]

end Demo

end examples

end MQT.QASM.Program
