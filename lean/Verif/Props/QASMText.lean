/-
C103: the text of an exported circuit is read as the circuit.
-/
import Verif.QASM.PrintExport
import Verif.Props.Program

set_option autoImplicit false

namespace MQT.QASM.Print

open MQT.IR
open MQT.QASM.GateCall (Exprs Printer dumpOp2 dumpOp3 sortCtrls Call Mod)
open MQT.QASM.Program (E Tk Statement Files parseText ofScan)
open MQT.QASM.Scanner

/-- **C103.** The text of a circuit is read as the comments with the layouts, the version, the gates of the included file,
the declarations of the registers and the operations.
Missing from C103: registers with the name of a keyword (`c103_keyword`), gates without a name in OpenQASM
(`c103_unnamed`), and OpenQASM 3 for a circuit without registers and operations (`c103_empty`). -/
theorem c103_text_partial {F : Files} {qasm3 : Bool} {inc : List Statement} (hF : Included F qasm3 inc) (init outp : PMap)
    {qregs cregs : List Reg} {ls : List Line} (hq : ∀ r ∈ qregs, IsReg r) (hc : ∀ r ∈ cregs, IsReg r) (hl : ∀ l ∈ ls, IsLine l)
    (hne : qasm3 = false ∨ qregs ≠ []) (hinc : qasm3 = false → inc ≠ []) :
    ∃ N, ∀ n ≥ N, parseText F n (circuit qasm3 init outp qregs cregs ls) = some (statements init outp qregs cregs ls qasm3 inc) := by
  obtain ⟨ts, h1, h2⟩ := circuit_emit hF init outp hq hc hl (by
    rcases hne with h | h
    · simp [hinc h]
    · simp [h])
  exact Program.c102_text_partial h1 h2

/-- The register a statement declares. -/
def declared (quantum : Bool) : Statement → Option (String × ℕ)
  | .decl _ (.qubit (some (.atom (.lit (.num (.int v _)))))) s _ => if quantum then some (s, v.natAbs) else none
  | .decl _ (.bit (some (.atom (.lit (.num (.int v _)))))) s _ => if quantum then none else some (s, v.natAbs)
  | _ => none

def isDecl : Statement → Bool
  | .decl .. => true
  | _ => false

theorem declared_decls (quantum : Bool) (l : List Reg) :
    (l.map (toDecl quantum)).filterMap (declared quantum) = l.map (fun r => (r.name, r.size)) ∧
    (l.map (toDecl quantum)).filterMap (declared !quantum) = [] ∧ (l.map (toDecl quantum)).filter (fun s => !isDecl s) = [] := by
  induction l with
  | nil => simp
  | cons r l ih => cases quantum <;> simp_all [toDecl, declared, natural, number, isDecl]

theorem declared_line (l : Line) : isDecl (toStatement l) = false ∧ ∀ quantum, declared quantum (toStatement l) = none := by
  cases l with
  | out o => exact ⟨rfl, fun _ => rfl⟩
  | stmt s => cases s <;> exact ⟨rfl, fun _ => rfl⟩

theorem declared_lines (ls : List Line) : (∀ quantum, (ls.map toStatement).filterMap (declared quantum) = []) ∧
    (ls.map toStatement).filter (fun s => !isDecl s) = ls.map toStatement := by
  induction ls with
  | nil => simp
  | cons l ls ih => simp_all [declared_line]

/-- **C103.** So two circuits with the same text have the same registers, operations and layouts. -/
theorem c103_same_text {F : Files} {qasm3 : Bool} {inc : List Statement} (hF : Included F qasm3 inc) (hinc : qasm3 = false → inc ≠ [])
    {init outp init' outp' : PMap} {qregs cregs qregs' cregs' : List Reg} {ls ls' : List Line}
    (hq : ∀ r ∈ qregs, IsReg r) (hc : ∀ r ∈ cregs, IsReg r) (hl : ∀ l ∈ ls, IsLine l) (hne : qasm3 = false ∨ qregs ≠ [])
    (hq' : ∀ r ∈ qregs', IsReg r) (hc' : ∀ r ∈ cregs', IsReg r) (hl' : ∀ l ∈ ls', IsLine l) (hne' : qasm3 = false ∨ qregs' ≠ [])
    (h : circuit qasm3 init outp qregs cregs ls = circuit qasm3 init' outp' qregs' cregs' ls') :
    qregs.map (fun r => (r.name, r.size)) = qregs'.map (fun r => (r.name, r.size)) ∧
    cregs.map (fun r => (r.name, r.size)) = cregs'.map (fun r => (r.name, r.size)) ∧
    ls.map toStatement = ls'.map toStatement ∧ layouts init outp = layouts init' outp' := by
  obtain ⟨N, hN⟩ := c103_text_partial hF init outp hq hc hl hne hinc
  obtain ⟨N', hN'⟩ := c103_text_partial hF init' outp' hq' hc' hl' hne' hinc
  have h1 := hN _ (le_max_left N N')
  rw [h, hN' _ (le_max_right N N')] at h1
  have h1 := (Option.some.inj h1).symm
  have isL : ∀ i o, ∀ s ∈ layouts i o, ∀ v b, s ≠ Statement.version v b := by
    intro i o s hs v b
    unfold layouts at hs
    split_ifs at hs <;> simp at hs <;> rcases hs with rfl | rfl <;> simp
  have split : ∀ (a a' b b' : List Statement) (v : List Char) (g : Bool), (∀ s ∈ a, ∀ v b, s ≠ Statement.version v b) →
      (∀ s ∈ a', ∀ v b, s ≠ Statement.version v b) → a ++ .version v g :: b = a' ++ .version v g :: b' → a = a' ∧ b = b' := by
    intro a
    induction a with
    | nil =>
      intro a' b b' v g _ h' e
      cases a' with
      | nil => exact ⟨rfl, by simpa using e⟩
      | cons s a' =>
        simp only [List.nil_append, List.cons_append, List.cons.injEq] at e
        exact absurd e.1.symm (h' s (by simp) v g)
    | cons s a ih =>
      intro a' b b' v g hs h' e
      cases a' with
      | nil =>
        simp only [List.nil_append, List.cons_append, List.cons.injEq] at e
        exact absurd e.1 (hs s (by simp) v g)
      | cons s' a' =>
        simp only [List.cons_append, List.cons.injEq] at e
        obtain ⟨h1, h2⟩ := ih a' b b' v g (fun x hx => hs x (by simp [hx])) (fun x hx => h' x (by simp [hx])) e.2
        exact ⟨by rw [e.1, h1], h2⟩
  obtain ⟨e1, e2⟩ := split _ _ _ _ _ _ (isL init outp) (isL init' outp') h1
  have e2 := List.append_cancel_left e2
  have hd := fun quantum => congrArg (List.filterMap (declared quantum)) e2
  have hs := congrArg (List.filter fun s => !isDecl s) e2
  have ht := hd true
  have hf := hd false
  have n1 : ∀ l : List Reg, (l.map (toDecl false)).filterMap (declared true) = [] := fun l => (declared_decls false l).2.1
  have n2 : ∀ l : List Reg, (l.map (toDecl true)).filterMap (declared false) = [] := fun l => (declared_decls true l).2.1
  simp only [List.filterMap_append, (declared_decls true _).1, (declared_lines _).1, n1, List.append_nil] at ht
  simp only [List.filterMap_append, (declared_decls false _).1, (declared_lines _).1, n2, List.append_nil, List.nil_append] at hf
  simp only [List.filter_append, (declared_decls true _).2.2, (declared_decls false _).2.2, (declared_lines _).2, List.nil_append] at hs
  exact ⟨ht, hf, hs, e1⟩

/-- **C103.** What is exported for a measurement, a reset or a barrier can be read. -/
theorem c103_measures {qregs cregs : List Reg} (hq : ∀ r ∈ qregs, IsReg r) (hc : ∀ r ∈ cregs, IsReg r) {qasm3 : Bool} {o : NOp} {l : List Stmt}
    (h : dump qregs cregs qasm3 o = .ok l) : ∀ s ∈ l, IsLine (.stmt s) := dump_readable hq hc h

/-- **C103.** What is exported for a gate to OpenQASM 3 can be read. -/
theorem c103_gates3 {X : Exprs E} {P : Printer X} (hP : Prints P) {regs : List Reg} (hr : ∀ r ∈ regs, IsReg r) {o : StdOp ℝ}
    (ht : o.type ∈ named) (hq : o.type = .gphase ∨ o.targets ≠ []) (hc : o.controls.card < 2 ^ 63) {l : List (GateCall.Out E)}
    (h : dumpOp3 P regs o = .ok l) : ∀ x ∈ l, IsLine (.out x) := by
  have hlen : (sortCtrls o.controls).length < 2 ^ 63 := by simpa [sortCtrls] using hc
  refine dumpGateType_readable hP hr (dumpControls_readable _ _ (by simpa using hlen)) ht ?_ h
  rcases hq with hg | hq
  · by_cases he : sortCtrls o.controls = []
    · exact .inr ⟨hg, by rw [he]; rfl⟩
    · exact .inl (by simp [he])
  · exact .inl (by simp [hq])

/-- **C103.** What is exported for a gate to OpenQASM 2 can be read. -/
theorem c103_gates2 {X : Exprs E} {P : Printer X} (hP : Prints P) {regs : List Reg} (hr : ∀ r ∈ regs, IsReg r) {o : StdOp ℝ}
    (ht : o.type ∈ named) (hq : o.type = .gphase ∨ o.targets ≠ []) {l : List (GateCall.Out E)}
    (h : dumpOp2 P regs o = .ok l) : ∀ x ∈ l, IsLine (.out x) := by
  have main : ∀ m, GateCall.dumpGateType P regs (sortCtrls o.controls).length [] o.type o.params ((sortCtrls o.controls).map Prod.fst) o.targets = .ok m →
      ∀ x ∈ m, IsOut x := fun m hm => by
    refine dumpGateType_readable hP hr (by simp) ht ?_ hm
    rcases hq with hg | hq
    · by_cases he : sortCtrls o.controls = []
      · exact .inr ⟨hg, by rw [he]; rfl⟩
      · exact .inl (by simp [he])
    · exact .inl (by simp [hq])
  unfold dumpOp2 at h
  simp only at h
  split_ifs at h
  · exact main l h
  · obtain ⟨a, h1, h⟩ := bind_ok h
    obtain ⟨m, h2, h⟩ := bind_ok h
    cases h
    intro x hx
    simp only [List.mem_append] at hx
    rcases hx with hx | hx | hx
    · exact dumpX_readable hr _ _ h1 x hx
    · exact main m h2 x hx
    · exact dumpX_readable hr _ _ h1 x hx

/-! ### The included file -/

/-- `QE1LIB` (StdGates.hpp 30-47). -/
def qelibText : String :=
  "gate rccx a, b, c {\n  u2(0, pi) c; u1(pi/4) c; \n  cx b, c; u1(-pi/4) c; \n  cx a, c; u1(pi/4) c; \n  cx b, c; u1(-pi/4) c; \n  u2(0, pi) c; \n}\n" ++
  "gate rc3x a,b,c,d {\n  u2(0,pi) d; u1(pi/4) d; \n  cx c,d; u1(-pi/4) d; u2(0,pi) d; \n  cx a,d; u1(pi/4) d; \n  cx b,d; u1(-pi/4) d; \n" ++
  "  cx a,d; u1(pi/4) d; \n  cx b,d; u1(-pi/4) d; \n  u2(0,pi) d; u1(pi/4) d; \n  cx c,d; u1(-pi/4) d; \n  u2(0,pi) d; \n}\n"

/-- No files on the disk. -/
def builtinFiles : Files := ⟨fun _ => none, match scan qelibText.toList with | .ok ts => ts.map ofScan | _ => []⟩

def u1 (neg : Bool) (q : String) : Program.Quantum := .call "u1" [] [piOver neg 4] [.ref ⟨q, []⟩]
def u2 (q : String) : Program.Quantum := .call "u2" [] [natural 0, .atom (.name "pi")] [.ref ⟨q, []⟩]
def cx (p q : String) : Program.Quantum := .call "cx" [] [] [.ref ⟨p, []⟩, .ref ⟨q, []⟩]

/-- The gates of it. -/
def qelibGates : List Statement :=
  [.gate "rccx" [] ["a", "b", "c"] [u2 "c", u1 false "c", cx "b" "c", u1 true "c", cx "a" "c", u1 false "c", cx "b" "c", u1 true "c", u2 "c"] false,
   .gate "rc3x" [] ["a", "b", "c", "d"] [u2 "d", u1 false "d", cx "c" "d", u1 true "d", u2 "d", cx "a" "d", u1 false "d", cx "b" "d", u1 true "d",
     cx "a" "d", u1 false "d", cx "b" "d", u1 true "d", u2 "d", u1 false "d", cx "c" "d", u1 true "d", u2 "d"] false]

theorem cat_of_program {F : Files} {a : Bool} {l : List Statement} {ts : List Tk} (h : Program.ProgramText true F a l ts)
    (hn : ∀ t ∈ ts, t ≠ .kw .cond ∧ t ≠ .kw .openqasm ∧ t ≠ .kw .incl) : Program.Cat (Program.SimpleText true) l ts := by
  induction h with
  | nil => exact .nil
  | version => exact absurd rfl (hn (.kw .openqasm) (by simp)).2.1
  | cons a c hs hp ih =>
    refine .cons ?_ (ih fun t ht => hn t (List.mem_append_right _ ht))
    cases hs with
    | simple _ h => exact h
    | cond => exact absurd rfl (hn (.kw .cond) (by simp)).1
    | condElse => exact absurd rfl (hn (.kw .cond) (by simp)).1
  | incl => exact absurd rfl (hn (.kw .incl) (by simp)).2.2

set_option maxRecDepth 20000 in
theorem qelib_program : Program.program builtinFiles 60 true builtinFiles.qelib = some qelibGates := by
  rfl

set_option maxRecDepth 20000 in
theorem qelib_tokens : ∀ t ∈ builtinFiles.qelib, t ≠ .kw .cond ∧ t ≠ .kw .openqasm ∧ t ≠ .kw .incl := by
  decide +kernel

/-- **C103.** The files of the library are as demanded. -/
theorem c103_included : Included builtinFiles true [] ∧ Included builtinFiles false qelibGates :=
  ⟨⟨rfl, rfl⟩, rfl, cat_of_program (Program.program_sound _ _ _ _ _ (fun h => (qelib_tokens _ h).2.2 rfl) qelib_program) qelib_tokens⟩

/-! ### What is not read -/

theorem keyword_not_ident : ∀ w ∈ keywords, w ≠ "#dim".toList → ∀ s, ofScan (.keyword w) ≠ .ident s := by
  have : ∀ w ∈ keywords, w ≠ "#dim".toList → (match ofScan (.keyword w) with | .ident _ => false | _ => true) = true := by decide +kernel
  intro w hw hd s e
  have := this w hw hd
  rw [e] at this
  cases this

/-- **C103 fails.** A circuit with a register named as any of the keywords is exported as a text that is not read. -/
theorem c103_keyword (F : Files) (w : String) (hw : w.toList ∈ keywords) (hd : w.toList ≠ "#dim".toList)
    (hF : F.disk "stdgates.inc" = none) (n : ℕ) : parseText F n (circuit true [] [] [⟨0, 1, w⟩] [] []) = none := by
  have ht : Text (decl true true ⟨0, 1, w⟩) [.keyword "qubit".toList, .punct ['['], .num (.int 1 false), .punct [']'], .keyword w.toList, .punct [';']] := by
    have := (pre_keyword (w := "qubit".toList) (by decide +kernel) (by decide +kernel)).append ((pre_single (c := '[') (by decide)).append
      ((pre_nat (n := 1) (by norm_num)).append ((pre_single (c := ']') (by decide)).append (((pre_keyword hw hd).space (c := ' ') (by decide)).append pre_done
        fun rest _ => sep_done rest) fun _ _ => trivial) fun rest _ => sep_single (by decide) _) fun _ _ => trivial) fun rest _ => sep_single (by decide) _
    simpa [decl] using this [] [] trivial (.done [] .nil)
  have ht := pre_version true _ _ trivial ht
  have h2 := text_line_none (c := 'i') (by decide) (by decide +kernel) (text_line_none (c := 'o') (by decide) (by decide +kernel) ht)
  have e : circuit true [] [] [⟨0, 1, w⟩] [] [] = Scanner.line 'i' [] ++ '\n' :: (Scanner.line 'o' [] ++ '\n' :: (version true ++ decl true true ⟨0, 1, w⟩)) := by
    simp [circuit, header, printed]
  rw [parseText, e, scan, scanF_text h2 _ (by omega)]
  have hk := keyword_not_ident _ hw hd
  have ho : ofScan (.keyword "qubit".toList) = .ty .qubit := by decide +kernel
  have ho' : ofScan (.num (.int 1 false)) = .lit (.num (.int 1 false)) := rfl
  have hv : ofScan (.num (.float "3.0".toList false)) = .lit (.num (.float "3.0".toList false)) := rfl
  have hi : ofScan (.str "stdgates.inc".toList) = .str "stdgates.inc" := by decide +kernel
  simp only [if_true, List.map_cons, List.map_nil, of_version, of_single, ho, ho', hv, hi, List.cons_append, List.nil_append]
  generalize ofScan (.keyword w.toList) = t at hk
  cases n with
  | zero => rfl
  | succ n =>
    cases n with
    | zero => rfl
    | succ n =>
      cases n with
      | zero => rfl
      | succ n =>
        have hx : Program.expr [.lit (.num (.int 1 false)), .rbr, t, .semi] = some (natural 1, [.rbr, t, .semi]) :=
          Program.expr_text (e := natural 1) (ts := [.lit (.num (.int 1 false))]) (.atom _ _ _) [.rbr, t, .semi] (by simp)
        have hid : Program.ident [t, .semi] = none := by
          cases t <;> first | rfl | exact absurd rfl (hk _)
        simp [Program.program, Program.version, Program.expect, Program.statement, Program.skipInclude, Files.resolve, hF, Program.statementOf,
          Program.declaration, Program.designator, Program.TyKw.old, Program.TyKw.sized, hx, hid]

/-- **C103 fails.** A circuit without qubits, bits and operations is exported to OpenQASM 3 as a text that is not read. -/
theorem c103_empty (F : Files) (hF : F.disk "stdgates.inc" = none) (n : ℕ) : parseText F n (circuit true [] [] [] [] []) = none := by
  have hs : scan (circuit true [] [] [] [] []) =
      .ok [.keyword "OPENQASM".toList, .num (.float "3.0".toList false), .punct [';'], .keyword "include".toList, .str "stdgates.inc".toList, .punct [';']] := by
    decide +kernel
  rw [parseText, hs]
  have hm : List.map ofScan [.keyword "OPENQASM".toList, .num (.float "3.0".toList false), .punct [';'], .keyword "include".toList, .str "stdgates.inc".toList, .punct [';']] =
      [.kw .openqasm, .lit (.num (.float "3.0".toList false)), .semi, .kw .incl, .str "stdgates.inc", .semi] := by decide +kernel
  simp only
  rw [hm]
  cases n with
  | zero => rfl
  | succ n => simp [Program.program, Program.version, Program.expect, Program.c102_include_last F hF n]

/-- **C103 fails.** Of an operation whose type has no name in OpenQASM only the operand is exported ... -/
theorem c103_unnamed {X : Exprs E} (P : Printer X) (regs : List Reg) (type : OpType) (ht : type ∉ named) (ps : List ℝ) (q : ℕ) :
    GateCall.dumpGateType P regs 0 [] type ps [] [q] = (elemAt regs q).bind fun o => .ok [.call ⟨"", [], [], [.op o]⟩] := by
  have hg : GateCall.gateName P type false ps = .ok ("", []) := by
    cases type <;> first | rfl | (exfalso; revert ht; decide)
  have hd : GateCall.dumpGateType P regs 0 [] type ps [] [q] = (GateCall.gateName P type false ps).bind fun g =>
      (GateCall.dumpCall regs 0 [] g.1 g.2 [q]).bind fun a => .ok [a] := by
    cases type <;> first | rfl | (exfalso; revert ht; decide)
  rw [hd, hg]
  simp only [Res.bind, GateCall.dumpCall, dumpOperands]
  cases elemAt regs q <;> simp [GateCall.cs_zero]

/-- ... and that is not read. -/
theorem c103_unnamed_text (F : Files) (hF : F.disk "stdgates.inc" = none) (n : ℕ) :
    parseText F n (circuit true [] [] [⟨0, 1, "q"⟩] [] [.out (.call ⟨"", [], [], [.op (.elem "q" 0)]⟩)]) = none := by
  have hs : scan (circuit true [] [] [⟨0, 1, "q"⟩] [] [.out (.call ⟨"", [], [], [.op (.elem "q" 0)]⟩)]) =
      .ok [.keyword "OPENQASM".toList, .num (.float "3.0".toList false), .punct [';'], .keyword "include".toList, .str "stdgates.inc".toList, .punct [';'],
        .keyword "qubit".toList, .punct ['['], .num (.int 1 false), .punct [']'], .ident ['q'], .punct [';'],
        .ident ['q'], .punct ['['], .num (.int 0 false), .punct [']'], .punct [';']] := by
    decide +kernel
  have hm : List.map ofScan [.keyword "OPENQASM".toList, .num (.float "3.0".toList false), .punct [';'], .keyword "include".toList, .str "stdgates.inc".toList, .punct [';'],
        .keyword "qubit".toList, .punct ['['], .num (.int 1 false), .punct [']'], .ident ['q'], .punct [';'],
        .ident ['q'], .punct ['['], .num (.int 0 false), .punct [']'], .punct [';']] =
      [.kw .openqasm, .lit (.num (.float "3.0".toList false)), .semi, .kw .incl, .str "stdgates.inc", .semi,
        .ty .qubit, .lbr, .lit (.num (.int 1 false)), .rbr, .ident "q", .semi, .ident "q", .lbr, .lit (.num (.int 0 false)), .rbr, .semi] := by
    decide +kernel
  rw [parseText, hs]
  simp only
  rw [hm]
  have hx : Program.expr [.lit (.num (.int 1 false)), .rbr, .ident "q", .semi, .ident "q", .lbr, .lit (.num (.int 0 false)), .rbr, .semi] =
      some (natural 1, [.rbr, .ident "q", .semi, .ident "q", .lbr, .lit (.num (.int 0 false)), .rbr, .semi]) := rfl
  have ha : Program.assignment [.ident "q", .lbr, .lit (.num (.int 0 false)), .rbr, .semi] = none := rfl
  rcases n with _ | _ | _ | _ | n
  · rfl
  · rfl
  · rfl
  · simp [Program.program, Program.version, Program.expect, Program.statement, Program.skipInclude, Files.resolve, hF, Program.statementOf,
      Program.declaration, Program.designator, Program.optInit, Program.ident, Program.TyKw.old, Program.TyKw.sized, hx]
  · simp [Program.program, Program.version, Program.expect, Program.statement, Program.skipInclude, Files.resolve, hF, Program.statementOf,
      Program.declaration, Program.designator, Program.optInit, Program.ident, Program.TyKw.old, Program.TyKw.sized, Program.isAssignment, hx, ha]

section examples

namespace Demo

theorem isName_q : IsName "q" := ⟨'q', [], by decide +kernel, by decide, by decide, by decide +kernel⟩
theorem isName_c : IsName "c" := ⟨'c', [], by decide +kernel, by decide, by decide, by decide +kernel⟩
theorem isName_u : IsName "U" := ⟨'U', [], by decide +kernel, by decide, by decide, by decide +kernel⟩

def qs : List Reg := [⟨0, 2, "q"⟩]
def cs : List Reg := [⟨0, 2, "c"⟩]

/-- A gate with controls and parameters, a barrier, a reset, and a measurement of one qubit and of the register. -/
def lines : List Line :=
  [.out (.call ⟨"U", [.ctrl true 1], [piOver true 2, number (.float "0.5".toList false), number (.int (-3) true)], [.op (.elem "q" 1), .op (.elem "q" 0)]⟩),
   .stmt (.barrier [.reg "q"]), .stmt (.reset (.elem "q" 0)), .stmt (.measure (.elem "c" 1) (.elem "q" 0)), .stmt (.measure (.reg "c") (.reg "q"))]

def text3 : String := "// i 1 0\n// o 0 1\nOPENQASM 3.0;\ninclude \"stdgates.inc\";\nqubit[2] q;\nbit[2] c;\n" ++
  "ctrl @ U(-pi/2,0.5,-3) q[1], q[0];\nbarrier q;\nreset q[0];\nc[1] = measure q[0];\nc = measure q;\n"

def text2 : String := "// i 1 0\n// o 0 1\nOPENQASM 2.0;\ninclude \"qelib1.inc\";\nqreg q[2];\ncreg c[2];\n" ++
  "ctrl @ U(-pi/2,0.5,-3) q[1], q[0];\nbarrier q;\nreset q[0];\nmeasure q[0] -> c[1];\nmeasure q -> c;\n"

example : circuit true [(0, 1), (1, 0)] [(0, 0), (1, 1)] qs cs lines = text3.toList := by decide +kernel

example : circuit false [(0, 1), (1, 0)] [(0, 0), (1, 1)] qs cs lines = text2.toList := by decide +kernel

theorem lines_readable : ∀ l ∈ lines, IsLine l := by
  have hq0 : IsOperand (.elem "q" 0) := ⟨isName_q, by norm_num⟩
  have hq1 : IsOperand (.elem "q" 1) := ⟨isName_q, by norm_num⟩
  have hc1 : IsOperand (.elem "c" 1) := ⟨isName_c, by norm_num⟩
  simp only [lines, List.mem_cons, List.not_mem_nil, or_false]
  rintro l (rfl | rfl | rfl | rfl | rfl)
  · refine ⟨.inl ⟨isName_u, by simp⟩, ?_, ?_, ?_⟩
    · simp [IsMod]
    · simp only [List.mem_cons, List.not_mem_nil, or_false]
      rintro e (rfl | rfl | rfl)
      · exact .inr ⟨true, 2, by norm_num, rfl⟩
      · exact .inl ⟨.float _ _, ⟨'0', [], '.' :: nat 5, [], by decide +kernel, by decide, by simp [IsDigits], .inr ⟨_, rfl, (nat_digits 5).1⟩, .inl rfl, by simp,
          by decide +kernel⟩, rfl⟩
      · exact .inl ⟨.int _ _, ⟨by norm_num, by norm_num⟩, rfl⟩
    · simp only [List.mem_cons, List.not_mem_nil, or_false]
      rintro o (rfl | rfl)
      · exact hq1
      · exact hq0
  · intro o ho
    rw [List.mem_singleton.1 ho]
    exact isName_q
  · exact hq0
  · exact ⟨hc1, hq0⟩
  · exact ⟨isName_c, isName_q⟩

/-- Both texts are read. -/
example (qasm3 : Bool) : ∃ N, ∀ n ≥ N, parseText builtinFiles n (circuit qasm3 [(0, 1), (1, 0)] [(0, 0), (1, 1)] qs cs lines) =
    some (statements [(0, 1), (1, 0)] [(0, 0), (1, 1)] qs cs lines qasm3 (if qasm3 then [] else qelibGates)) := by
  refine c103_text_partial ?_ _ _ ?_ ?_ lines_readable (.inr (by simp [qs])) ?_
  · cases qasm3
    · exact c103_included.2
    · exact c103_included.1
  · simp [qs, IsReg, isName_q]
  · simp [cs, IsReg, isName_c]
  · rintro rfl
    simp [qelibGates]

set_option maxRecDepth 20000 in
/-- The statements, one by one. -/
example : parseText builtinFiles 60 text3.toList =
  some [.layout "// i 1 0".toList, .outputs "// o 0 1".toList, .version "3.0".toList false,
    .decl false (.qubit (some (natural 2))) "q" none, .decl false (.bit (some (natural 2))) "c" none,
    .quantum (.call "U" [.ctrl true none] [.un .neg (.bin .div (.atom (.name "pi")) (natural 2)), number (.float "0.5".toList false), number (.int (-3) true)]
      [.ref ⟨"q", [[natural 1]]⟩, .ref ⟨"q", [[natural 0]]⟩]),
    .quantum (.barrier [.ref ⟨"q", []⟩]), .quantum (.reset (.ref ⟨"q", [[natural 0]]⟩)),
    .assign .set ⟨"c", [[natural 1]]⟩ (.measure (.ref ⟨"q", [[natural 0]]⟩)), .assign .set ⟨"c", []⟩ (.measure (.ref ⟨"q", []⟩))] := by
  rfl

/-- A keyword. -/
example (n : ℕ) : parseText builtinFiles n "// i\n// o\nOPENQASM 3.0;\ninclude \"stdgates.inc\";\nqubit[1] in;\n".toList = none :=
  c103_keyword builtinFiles "in" (by decide +kernel) (by decide +kernel) rfl n

end Demo

end examples

end MQT.QASM.Print
