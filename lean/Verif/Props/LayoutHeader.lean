/-
C98: initial layout and output permutation survive the export to OpenQASM.
-/
import Verif.QASM.LayoutHeader

set_option autoImplicit false

namespace MQT.QASM.Scanner

/-- A map that `dumpOpenQASM` can invert: no logical qubit twice, and physical qubits of the circuit only. -/
structure Valid (init m : PMap) : Prop where
  sorted : Sorted m
  values : (m.map Prod.snd).Nodup
  keys : ∀ p ∈ m.map Prod.fst, p ∈ init.map Prod.fst

theorem printed_ne {init m : PMap} (hv : (m.map Prod.snd).Nodup) (h : m ≠ []) : printed init m ≠ [] := by
  intro e
  have h2 := (inverse_perm init m [] .nil (by simpa using hv)).2.length_eq
  have h1 : (m.foldl (fun inv e => emplace e.2 (index init e.1) inv) []).length = 0 := by
    rw [← List.length_map (f := Prod.snd)]
    exact List.length_eq_zero_iff.2 e
  rw [h1] at h2
  exact h (List.length_eq_zero_iff.1 (by simpa using h2.symm))

/-- **C98.** The header of an exported file is read back with the physical qubits numbered consecutively, and the logical
qubits numbered consecutively. -/
theorem c98_header {init out : PMap} (hi : Valid init init) (ho : Valid init out) (hin : init ≠ []) (hon : out ≠ [])
    (hlen : init.length ≤ 2 ^ 32) {rest : List Char} {ts : List Tok} (hr : Text rest ts) (ht : Plain ts) (i o : PMap) :
    importLayouts i o (header init out ++ rest) = .ok (renumbered init init, renumbered init out) := by
  have h1 := parse_line (c := 'i') (by decide) hi.sorted hi.sorted hi.keys hi.values hlen
  have h2 := parse_line (c := 'o') (by decide) hi.sorted ho.sorted ho.keys ho.values hlen
  have hx : Text (header init out ++ rest) (.layout (line 'i' (printed init init)) :: .outputs (line 'o' (printed init out)) :: ts) := by
    have e : header init out ++ rest = line 'i' (printed init init) ++ '\n' :: (line 'o' (printed init out) ++ '\n' :: rest) := by simp [header]
    rw [e]
    exact text_line (by decide) (classify_i (printed_ne hi.values hin)) (text_line (by decide) (classify_o (printed_ne ho.values hon)) hr)
  have hs : scan (header init out ++ rest) = .ok _ := scanF_text hx _ (by omega)
  have e1 : renumbered init init ≠ [] := by simpa [renumbered] using hin
  have e2 : renumbered init out ≠ [] := by simpa [renumbered] using hon
  rw [importLayouts, hs]
  simp only [visit, h1, h2, Res.bind, visit_plain ht]
  simp [e1, e2]

/-- **C98.** If the logical qubits are numbered consecutively, and the physical ones too, the layouts are those exported.
Missing from C98: output permutations without some of the logical qubits (`c98_garbage`, `c98_none`), and files with other
comments (`c98_comment`, `c98_twice`). -/
theorem c98_same_partial {init out : PMap} (hi : Valid init init) (ho : Valid init out) (hin : init ≠ []) (hon : out ≠ [])
    (hlen : init.length ≤ 2 ^ 32) (hp : init.map Prod.fst = List.range init.length)
    (hl : (init.map Prod.snd).Perm (List.range init.length)) (hlo : (out.map Prod.snd).Perm (List.range out.length))
    {rest : List Char} {ts : List Tok} (hr : Text rest ts) (ht : Plain ts) (i o : PMap) :
    importLayouts i o (header init out ++ rest) = .ok (init, out) := by
  rw [c98_header hi ho hin hon hlen hr ht, renumbered_eq hp hi.keys hl, renumbered_eq hp ho.keys hlo]

/-- Three qubits, exchanged, one of them not an output. -/
example : importLayouts [(0, 0), (1, 1), (2, 2)] [(0, 0), (1, 1), (2, 2)]
    (header [(0, 2), (1, 0), (2, 1)] [(0, 1), (2, 0)] ++ "x q;".toList) = .ok ([(0, 2), (1, 0), (2, 1)], [(0, 1), (2, 0)]) :=
  c98_same_partial ⟨by unfold Sorted; decide, by decide, by decide⟩ ⟨by unfold Sorted; decide, by decide, by decide⟩ (by decide) (by decide) (by decide)
    (by decide) (by decide) (by decide)
    (ts := [.ident ['x'], .ident ['q'], .punct [';']])
    (.token [] ['x'] " q;".toList _ _ .nil (.ident 'x' [] (by decide) (by decide) (by decide)) (by decide : isId ' ' = false) <|
     .token [' '] ['q'] [';'] _ _ (.space ' ' [] (by decide) .nil) (.ident 'q' [] (by decide) (by decide) (by decide)) (by decide : isId ';' = false) <|
     .token [] [';'] [] _ _ .nil (.punct [';'] (by decide)) ⟨by decide, by decide⟩ (.done [] .nil))
    (by simp [Plain]) _ _

example : String.ofList (header [(0, 2), (1, 0), (2, 1)] [(0, 1), (2, 0)]) = "// i 1 2 0\n// o 2 0\n" := by decide +kernel

/-- Physical qubits that are not consecutive are renumbered. -/
example : renumbered [(1, 0), (4, 2), (7, 1)] [(4, 1), (7, 0)] = [(1, 1), (2, 0)] := by decide +kernel

/-- The layout of three qubits in order. -/
def three : PMap := [(0, 0), (1, 1), (2, 2)]

/-- **C98** fails if a logical qubit other than the last is not an output: the logical qubits after it are renumbered. -/
theorem c98_garbage : importLayouts three three (header three [(0, 0), (2, 2)]) = .ok (three, [(0, 0), (2, 1)]) := by
  decide +kernel

/-- **C98** fails if there is no output at all: the line is not recognised, and all qubits are outputs. -/
theorem c98_none : importLayouts three three (header three []) = .ok (three, three) := by decide +kernel

/-- **C98.** A comment that has an `i`, a space and a digit in it is read as an initial layout. -/
theorem c98_comment : importLayouts three three "// Fermi 2\nx q;".toList = .ok ([(2, 0)], three) := by decide +kernel

/-- **C98.** With such a comment an exported file is rejected. -/
theorem c98_twice : importLayouts three three ("// pi 3\n".toList ++ header three three) = .throw := by decide +kernel

/-- **C98.** Which comments are taken for an initial layout. -/
theorem c98_recognised (c : Char) (s : List Char) : hasLayout c s = true ↔ ∃ a d b, s = a ++ c :: ' ' :: d :: b ∧ isNum d = true := by
  constructor
  · intro h
    induction s with
    | nil => simp [hasLayout] at h
    | cons x s ih =>
      match s, ih, h with
      | [], _, h => simp [hasLayout] at h
      | [_], _, h => simp [hasLayout] at h
      | y :: d :: l, ih, h =>
        simp only [hasLayout, Bool.or_eq_true, Bool.and_eq_true, decide_eq_true_eq] at h
        rcases h with ⟨⟨h1, h2⟩, h3⟩ | h
        · exact ⟨[], d, l, by rw [h1, h2]; rfl, h3⟩
        · obtain ⟨a, d', b, e, h'⟩ := ih h
          exact ⟨x :: a, d', b, by rw [e]; rfl, h'⟩
  · rintro ⟨a, d, b, rfl, h⟩
    induction a with
    | nil => simp [hasLayout, h]
    | cons x a ih =>
      match a, ih with
      | [], ih => rw [List.nil_append] at ih; simp [hasLayout, h]
      | [y], ih => simp [hasLayout, h]
      | y :: z :: a, ih => simp only [List.cons_append, hasLayout] at ih ⊢; rw [ih]; simp

end MQT.QASM.Scanner
