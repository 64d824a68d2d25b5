/-
C97: the scanner of the OpenQASM importer finds the tokens of a text.
-/
import Verif.QASM.ScannerProof

set_option autoImplicit false

namespace MQT.QASM.Scanner

/-- **C97.** The scanner reads a text as the tokens it consists of, whatever white space and comments are between them.
Missing from C97: upper-case hexadecimal digits (`c97_hex`), the unit `dt` (`c97_dt`), a `-` in front of a digit that is an
operator (`c97_minus`), the keyword `#dim` (`c97_dim`). -/
theorem c97_scan_partial {l : List Char} {ts : List Tok} (h : Text l ts) : scan l = .ok ts :=
  scanF_text h _ (by omega)

/-- **C97.** A text has one list of tokens only. -/
theorem c97_unambiguous {l : List Char} {ts ts' : List Tok} (h : Text l ts) (h' : Text l ts') : ts = ts' :=
  Result.ok.inj ((c97_scan_partial h).symm.trans (c97_scan_partial h'))

/-- **C97.** One token after another: after white space and comments `next` returns the token and leaves what is after it. -/
theorem c97_next_partial {g w rest : List Char} {t : Tok} (hg : Gap g) (h : Lex w t) (hs : Stops w rest t) :
    next (g ++ (w ++ rest)) = .tok t rest := next_token hg h hs

/-- **C97.** Every call of `next` that returns a token other than the end of the text has consumed a character. -/
theorem c97_progress {l rest : List Char} {t : Tok} (h : next l = .tok t rest) (ht : t ≠ .eof) : rest.length < l.length := by
  have := next_left l
  rw [h] at this
  exact this.resolve_left ht

/-- The words reserved by OpenQASM 2 and 3 and the built-in functions, one by one. -/
def reserved : String :=
  "OPENQASM include defcalgrammar def cal defcal gate opaque extern box let break continue if else end return for while in " ++
  "pragma input output const readonly mutable qreg qubit creg bool bit int uint float angle complex array void duration " ++
  "stretch gphase inv pow ctrl negctrl #dim durationof delay reset measure barrier true false im sin cos tan exp ln sqrt"

/-- **C97.** The classes of characters and the keywords that the tokens are defined with. -/
theorem c97_characters :
    (∀ c, isSpace c = true ↔ c ∈ " \t\r\n".toList) ∧ (∀ c, isNum c = true ↔ c ∈ "0123456789".toList) ∧
    (∀ c, isFirstId c = true ↔ c ∈ "abcdefghijklmnopqrstuvwxyzABCDEFGHIJKLMNOPQRSTUVWXYZ_".toList) ∧
    (∀ c, isHex c = true ↔ c ∈ "0123456789abcdefABCDEF".toList) ∧ (∀ c, isId c = true ↔ isFirstId c = true ∨ isNum c = true) ∧
    keywords = reserved.toList.splitOn ' ' := by
  have key : ∀ (p : Char → Bool) (l : List Char), (∀ c, p c = true → c.toNat < 128) → (∀ n < 128, p (Char.ofNat n) = decide (Char.ofNat n ∈ l)) →
      (∀ c ∈ l, c.toNat < 128) → ∀ c, p c = true ↔ c ∈ l := by
    intro p l hp h hl c
    have hc : Char.ofNat c.toNat = c := Char.ofNat_toNat c
    constructor
    · intro h1
      have := h _ (hp c h1)
      rw [hc, h1] at this
      simpa using this.symm
    · intro h1
      have := h _ (hl c h1)
      rw [hc] at this
      rw [this]
      simpa using h1
  refine ⟨key _ _ ?_ (by decide +kernel) (by decide +kernel), key _ _ ?_ (by decide +kernel) (by decide +kernel),
    key _ _ ?_ (by decide +kernel) (by decide +kernel), key _ _ ?_ (by decide +kernel) (by decide +kernel), ?_, by decide +kernel⟩
  · intro c h
    simp only [isSpace, Bool.or_eq_true, decide_eq_true_eq] at h
    rcases h with ((rfl | rfl) | rfl) | rfl <;> decide
  · intro c h
    simp only [isNum, Bool.and_eq_true, decide_eq_true_eq] at h
    omega
  · intro c h
    simp only [isFirstId, Bool.or_eq_true, Bool.and_eq_true, decide_eq_true_eq] at h
    rcases h with (h | h) | rfl
    · omega
    · omega
    · decide
  · intro c h
    simp only [isHex, isNum, Bool.or_eq_true, Bool.and_eq_true, decide_eq_true_eq] at h
    omega
  · intro c
    simp [isId]

/-- A comment, a number in base 16, a unit of time, two operators that start alike. -/
example : Text "/* a*b/ */ 0x1_f>=>.5e-1ms;// end".toList
    [.num (.int 31 false), .punct ">=".toList, .punct ">".toList, .timing (.float ".5e-1".toList false) 3, .punct ";".toList] :=
  .token _ _ _ _ _ (.block " a*b/ ".toList " ".toList (by decide) (by decide) (.space ' ' [] (by decide) .nil))
    (.num _ _ (.based 16 "0x".toList "1_f".toList (by decide) (by unfold IsDigits; decide) (by decide) (by decide) (by decide +kernel)))
    ⟨by decide, by decide⟩ <|
  .token [] _ _ _ _ .nil (.punct ">=".toList (by decide)) ⟨by decide, by decide⟩ <|
  .token [] _ _ _ _ .nil (.punct ">".toList (by decide)) ⟨by decide, by decide⟩ <|
  .token [] _ _ _ _ .nil (.timing _ _ (.point '5' [] "e-1".toList (by decide) (by unfold IsDigits; decide)
    (.inr ⟨'e', ['-'], '1', [], rfl, by decide, by decide, by decide, by unfold IsDigits; decide⟩)) "ms".toList 3 (by decide)) trivial <|
  .token [] _ _ _ _ .nil (.punct ";".toList (by decide)) ⟨by decide, by decide⟩ <|
  .doneLine [] " end".toList .nil (by decide) (by decide)

/-- A layout, a keyword, names, a string. -/
example : Text "// i 1 0\nif c3 \"a'b\"$12->".toList
    [.layout "// i 1 0".toList, .keyword "if".toList, .ident "c3".toList, .str "a'b".toList, .hardware 12, .punct "->".toList] :=
  .comment [] " i 1 0".toList _ _ _ .nil (by decide) (by decide) <|
  .token [] _ _ _ _ .nil (.keyword "if".toList (by decide) (by decide)) (by decide : isId ' ' = false) <|
  .token [' '] _ _ _ _ (.space ' ' [] (by decide) .nil) (.ident 'c' ['3'] (by decide) (by decide) (by decide)) (by decide : isId ' ' = false) <|
  .token [' '] _ _ _ _ (.space ' ' [] (by decide) .nil) (.str '"' "a'b".toList (by decide) (by decide)) trivial <|
  .token [] _ _ _ _ .nil (.hardware "12".toList (by decide) (by decide +kernel)) (by decide : isNum '-' = false) <|
  .token [] _ _ _ _ .nil (.punct "->".toList (by decide)) ⟨by decide, by decide⟩ <|
  .done [] .nil

/-- **C97** fails for upper-case hexadecimal digits: `0xA` is read as -22. -/
theorem c97_hex : scan "0xA".toList = .ok [.num (.int (-22) false)] ∧ value 16 "A".toList = 10 := by
  decide +kernel

/-- **C97** fails for a difference without spaces: `3-1` is read as the numbers 3 and -1, `a-1` as a name and -1. -/
theorem c97_minus : scan "3-1".toList = .ok [.num (.int 3 false), .num (.int (-1) true)] ∧
    scan "a-1".toList = .ok [.ident ['a'], .num (.int (-1) true)] := by
  decide +kernel

/-- **C97** fails for the unit `dt`: it is read as seconds and a name `t`. -/
theorem c97_dt : scan "5dt;".toList = .ok [.timing (.int 5 false) 0, .ident ['t'], .punct [';']] := by
  decide +kernel

/-- **C97** fails for `#dim`, which is a keyword of the scanner: what it reads is an unknown token and the keyword `im`. -/
theorem c97_dim : "#dim".toList ∈ keywords ∧ scan "#dim".toList = .ok [.none, .keyword "im".toList] := by
  decide +kernel

/-- **C97.** A string without an end is read forever. -/
theorem c97_string (d : Char) (hd : d ∈ ['"', '\'']) (w : List Char) (hw : d ∉ w) : next (d :: w) = .loop := by
  have hd' : isFirstId d = false ∧ isNum d = false ∧ d ≠ '.' ∧ d ≠ '-' ∧ d ≠ '$' ∧ (d = '"' ∨ d = '\'') ∧ isSpace d = false ∧ d ≠ '/' := by
    simp only [List.mem_cons, List.not_mem_nil, or_false] at hd
    rcases hd with rfl | rfl <;> decide
  obtain ⟨h1, h2, h3, h4, h5, h6, h7, h8⟩ := hd'
  rw [next, gap_solid (solid_head ⟨h7, h8⟩)]
  simp only
  rw [token, if_neg (by simp [h1]), if_neg (by simp [h2, h3, h4]), if_neg (by simp [h5]), if_pos (by simpa using h6), string]
  have : w.dropWhile (fun a => decide (a ≠ d)) = [] := List.dropWhile_eq_nil_iff.2 fun a ha => by
    simp only [decide_eq_true_eq]
    rintro rfl
    exact hw ha
  simp only [this, if_true]

example : next "'abc\";".toList = .loop := c97_string '\'' (by decide) _ (by decide)

/-- **C97.** A character that starts no token takes the character after it with it. -/
theorem c97_unknown (c d : Char) (hc : c ∈ ['#', '?', '\\', '`']) (rest : List Char) : next (c :: d :: rest) = .tok .none rest := by
  simp only [List.mem_cons, List.not_mem_nil, or_false] at hc
  rcases hc with rfl | rfl | rfl | rfl <;>
    (rw [next, gap_solid (solid_head (by decide))]; simp [token, isFirstId, isNum, punct])

example : scan "x q?;x r;".toList = .ok [.ident ['x'], .ident ['q'], .none, .ident ['x'], .ident ['r'], .punct [';']] := by
  decide +kernel

end MQT.QASM.Scanner
