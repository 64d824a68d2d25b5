/-
What a text in OpenQASM consists of, and that the scanner (Verif/QASM/Scanner.lean) finds it.
-/
import Verif.QASM.Scanner
import Mathlib.Data.Nat.Digits.Defs
import Mathlib.Tactic.Ring
import Mathlib.Tactic.IntervalCases

set_option autoImplicit false

namespace MQT.QASM.Scanner

/-! ### Specification -/

/-- The value of a digit of any base up to 16. -/
def digitVal (c : Char) : ℕ :=
  if isNum c then c.toNat - '0'.toNat else if 'a'.toNat ≤ c.toNat then c.toNat - 'a'.toNat + 10 else c.toNat - 'A'.toNat + 10

/-- Digits of a base, and underscores. -/
def IsDigits (base : ℕ) (w : List Char) : Prop := ∀ c ∈ w, c = '_' ∨ (isHex c = true ∧ digitVal c < base)

/-- The number written by digits and underscores. -/
def value (base : ℕ) (w : List Char) : ℕ := Nat.ofDigits base ((w.filter (· ≠ '_')).map digitVal).reverse

/-- The marks of the bases. -/
def marks : List (ℕ × List Char) := [(2, ['0', 'b']), (2, ['0', 'B']), (8, ['0', 'o']), (16, ['0', 'x']), (16, ['0', 'X'])]

/-- The digits after a decimal point, with the point, if there is one. -/
def IsFraction (w : List Char) : Prop := w = [] ∨ ∃ ds, w = '.' :: ds ∧ IsDigits 10 ds

/-- The exponent, if there is one. -/
def IsExponent (w : List Char) : Prop :=
  w = [] ∨ ∃ e s d ds, w = e :: s ++ d :: ds ∧ e ∈ ['e', 'E'] ∧ s ∈ [[], ['+'], ['-']] ∧ isNum d = true ∧ IsDigits 10 ds

/-- The number a text stands for.  Upper-case hexadecimal digits are left out. -/
inductive NumText : List Char → Num → Prop
  | dec (d : Char) (w : List Char) (hd : isNum d = true) (hw : IsDigits 10 w) (hv : value 10 (d :: w) < 2 ^ 63) :
      NumText (d :: w) (.int (value 10 (d :: w)) false)
  | neg (d : Char) (w : List Char) (hd : isNum d = true) (hw : IsDigits 10 w) (hv : value 10 (d :: w) < 2 ^ 63) :
      NumText ('-' :: d :: w) (.int (-(value 10 (d :: w) : ℤ)) true)
  | based (base : ℕ) (mark w : List Char) (hm : (base, mark) ∈ marks) (hw : IsDigits base w) (hn : w ≠ [])
      (hu : ∀ c ∈ w, ¬ ('A'.toNat ≤ c.toNat ∧ c.toNat ≤ 'F'.toNat)) (hv : value base w < 2 ^ 63) :
      NumText (mark ++ w) (.int (value base w) false)
  | float (d : Char) (w f e : List Char) (hd : isNum d = true) (hw : IsDigits 10 w) (hf : IsFraction f) (he : IsExponent e)
      (hfe : f ++ e ≠ []) : NumText (d :: w ++ f ++ e) (.float ((d :: w ++ f ++ e).filter (· ≠ '_')) false)
  | negFloat (d : Char) (w f e : List Char) (hd : isNum d = true) (hw : IsDigits 10 w) (hf : IsFraction f) (he : IsExponent e)
      (hfe : f ++ e ≠ []) : NumText ('-' :: (d :: w ++ f ++ e)) (.float ((d :: w ++ f ++ e).filter (· ≠ '_')) true)
  | point (d : Char) (w e : List Char) (hd : isNum d = true) (hw : IsDigits 10 w) (he : IsExponent e) :
      NumText ('.' :: d :: w ++ e) (.float (('.' :: d :: w ++ e).filter (· ≠ '_')) false)

/-- The units of time, and the power of ten they divide by.  `dt` is left out. -/
def units : List (List Char × ℕ) := [(['s'], 0), (['m', 's'], 3), (['u', 's'], 6), (['n', 's'], 9), (['p', 's'], 12)]

/-- The operators and brackets of the language. -/
def operators : List (List Char) :=
  ["[", "]", "{", "}", "(", ")", ":", ";", ".", ",", "@", "-", "->", "-=", "+", "+=", "++", "*", "*=", "**", "**=", "/", "/=",
   "%", "%=", "|", "|=", "||", "&", "&=", "&&", "^", "^=", "~", "~=", "!", "!=", "<", "<=", "<<", "<<=", ">", ">=", ">>", ">>=",
   "=", "=="].map String.toList

/-- The text of a token. -/
inductive Lex : List Char → Tok → Prop
  | ident (c : Char) (w : List Char) (hc : isFirstId c = true) (hw : ∀ a ∈ w, isId a = true) (hk : c :: w ∉ keywords) :
      Lex (c :: w) (.ident (c :: w))
  | keyword (w : List Char) (hk : w ∈ keywords) (hd : w ≠ "#dim".toList) : Lex w (.keyword w)
  | num (w : List Char) (n : Num) (h : NumText w n) : Lex w (.num n)
  | timing (w : List Char) (n : Num) (h : NumText w n) (u : List Char) (k : ℕ) (hu : (u, k) ∈ units) : Lex (w ++ u) (.timing n k)
  | hardware (w : List Char) (hw : ∀ c ∈ w, isNum c = true) (hv : value 10 w < 2 ^ 63) : Lex ('$' :: w) (.hardware (value 10 w))
  | str (d : Char) (w : List Char) (hd : d ∈ ['"', '\'']) (hw : d ∉ w) : Lex (d :: w ++ [d]) (.str w)
  | punct (w : List Char) (hw : w ∈ operators) : Lex w (.punct w)

/-- The text after a token does not continue it.  Of the operators that start the text the longest one is taken; the
marks of comments count as operators. -/
def Stops (w : List Char) (rest : List Char) : Tok → Prop
  | .ident _ | .keyword _ => isId (ch rest) = false
  | .num _ => isId (ch rest) = false ∧ ch rest ≠ '.'
  | .hardware _ => isNum (ch rest) = false
  | .punct _ => (∀ o ∈ ['/', '/'] :: ['/', '*'] :: operators, o <+: w ++ rest → o.length ≤ w.length) ∧
      (w = ['-'] ∨ w = ['.'] → isNum (ch rest) = false)
  | _ => True

/-- White space and comments without a layout. -/
inductive Gap : List Char → Prop
  | nil : Gap []
  | space (c : Char) (g : List Char) (hc : isSpace c = true) (hg : Gap g) : Gap (c :: g)
  | line (b g : List Char) (hb : ∀ c ∈ b, c ≠ '\n' ∧ c ≠ '\x00') (hc : classify ('/' :: '/' :: b) = none) (hg : Gap g) :
      Gap ('/' :: '/' :: b ++ '\n' :: g)
  | block (b g : List Char) (hb : ¬ ['*', '/'] <:+: b) (h0 : '\x00' ∉ b) (hg : Gap g) : Gap ('/' :: '*' :: b ++ '*' :: '/' :: g)

/-- The tokens of a text. -/
inductive Text : List Char → List Tok → Prop
  | done (g : List Char) (hg : Gap g) : Text g []
  | doneLine (g b : List Char) (hg : Gap g) (hb : ∀ c ∈ b, c ≠ '\n' ∧ c ≠ '\x00') (hc : classify ('/' :: '/' :: b) = none) :
      Text (g ++ ('/' :: '/' :: b)) []
  | token (g w rest : List Char) (t : Tok) (ts : List Tok) (hg : Gap g) (hl : Lex w t) (hs : Stops w rest t) (hr : Text rest ts) :
      Text (g ++ (w ++ rest)) (t :: ts)
  | comment (g b rest : List Char) (t : Tok) (ts : List Tok) (hg : Gap g) (hb : ∀ c ∈ b, c ≠ '\n' ∧ c ≠ '\x00')
      (hc : classify ('/' :: '/' :: b) = some t) (hr : Text rest ts) : Text (g ++ ('/' :: '/' :: b ++ '\n' :: rest)) (t :: ts)

/-! ### Lemmas on lists -/

theorem ne_of_p {p : Char → Bool} {c d : Char} (h : p c = true) (hd : p d = false) : c ≠ d := by
  rintro rfl
  simp_all

theorem takeWhile_stop {p : Char → Bool} {w rest : List Char} (hw : ∀ a ∈ w, p a = true) (hr : p (ch rest) = false) :
    (w ++ rest).takeWhile p = w := by
  rw [List.takeWhile_append_of_pos hw]
  cases rest with
  | nil => simp
  | cons a l =>
    have : p a = false := hr
    simp [this]

theorem dropWhile_stop {p : Char → Bool} {w rest : List Char} (hw : ∀ a ∈ w, p a = true) (hr : p (ch rest) = false) :
    (w ++ rest).dropWhile p = rest := by
  rw [List.dropWhile_append_of_pos hw]
  cases rest with
  | nil => simp
  | cons a l =>
    have : p a = false := hr
    simp [this]

@[simp] theorem ch_cons (c : Char) (l : List Char) : ch (c :: l) = c := rfl
@[simp] theorem ch_nil : ch [] = '\x00' := rfl
@[simp] theorem peek_cons (c : Char) (l : List Char) : peek (c :: l) = ch l := rfl

/-! ### White space and comments -/

theorem inLine_of {b : List Char} (hb : ∀ c ∈ b, c ≠ '\n' ∧ c ≠ '\x00') : ∀ c ∈ '/' :: '/' :: b, inLine c = true := by
  intro c hc
  rcases List.mem_cons.1 hc with rfl | hc
  · decide
  rcases List.mem_cons.1 hc with rfl | hc
  · decide
  · simp [inLine, hb c hc]

theorem skipBlock_body (b rest : List Char) (hb : ¬ ['*', '/'] <:+: b) (h0 : '\x00' ∉ b) :
    skipBlock (b ++ '*' :: '/' :: rest) = '*' :: '/' :: rest := by
  induction b with
  | nil => simp [skipBlock]
  | cons c b ih =>
    rw [List.cons_append, skipBlock, if_neg, ih]
    · exact fun h => hb (h.trans (List.infix_cons List.infix_rfl))
    · exact fun h => h0 (List.mem_cons_of_mem _ h)
    · rintro (rfl | ⟨rfl, h⟩)
      · exact h0 List.mem_cons_self
      · cases b with
        | nil => simp at h
        | cons a b =>
          have : a = '/' := h
          subst this
          exact hb ⟨[], b, rfl⟩

theorem gap_space (f : ℕ) (c : Char) (l : List Char) (hc : isSpace c = true) : gap (f + 1) (c :: l) = gap (f + 1) l := by
  simp only [gap, List.dropWhile_cons, hc, if_true]

theorem gap_line (f : ℕ) (b rest : List Char) (hb : ∀ c ∈ b, c ≠ '\n' ∧ c ≠ '\x00') :
    gap (f + 1) ('/' :: '/' :: b ++ '\n' :: rest) =
      match classify ('/' :: '/' :: b) with
      | some t => (some t, rest)
      | none => gap f rest := by
  have h1 : ('/' :: '/' :: b ++ '\n' :: rest).dropWhile isSpace = '/' :: '/' :: b ++ '\n' :: rest := by
    simp [isSpace]
  rw [gap]
  simp only [h1]
  rw [if_pos ⟨rfl, rfl⟩, takeWhile_stop (inLine_of hb) (by rw [ch_cons]; decide), afterLine, dropWhile_stop (inLine_of hb) (by rw [ch_cons]; decide)]
  simp only [ch_cons, if_true, List.tail_cons]
  rfl

theorem gap_doneLine (f : ℕ) (b : List Char) (hb : ∀ c ∈ b, c ≠ '\n' ∧ c ≠ '\x00') (hc : classify ('/' :: '/' :: b) = none) :
    gap (f + 1) ('/' :: '/' :: b) = gap f [] := by
  have h1 : ('/' :: '/' :: b).dropWhile isSpace = '/' :: '/' :: b := by
    simp [isSpace]
  have h2 : ('/' :: '/' :: b).takeWhile inLine = '/' :: '/' :: b := by
    have := takeWhile_stop (rest := []) (inLine_of hb) (by decide)
    simpa only [List.append_nil] using this
  have h3 : ('/' :: '/' :: b).dropWhile inLine = [] := by
    have := dropWhile_stop (rest := []) (inLine_of hb) (by decide)
    simpa only [List.append_nil] using this
  rw [gap]
  simp only [h1, h2, afterLine, h3]
  rw [if_pos ⟨rfl, rfl⟩, hc]
  simp

theorem gap_block (f : ℕ) (b rest : List Char) (hb : ¬ ['*', '/'] <:+: b) (h0 : '\x00' ∉ b) :
    gap (f + 1) ('/' :: '*' :: b ++ '*' :: '/' :: rest) = gap f rest := by
  have h1 : ('/' :: '*' :: b ++ '*' :: '/' :: rest).dropWhile isSpace = '/' :: '*' :: b ++ '*' :: '/' :: rest := by
    simp [isSpace]
  have h2 : ('/' :: '*' :: b ++ '*' :: '/' :: rest).drop 2 = b ++ '*' :: '/' :: rest := rfl
  rw [gap]
  simp only [h1, h2]
  rw [if_neg (by simp), if_pos ⟨rfl, rfl⟩, skipBlock_body b rest hb h0]
  simp [expect]

/-- The scanner skips white space and comments. -/
theorem gap_skip {g : List Char} (hg : Gap g) (rest : List Char) (f : ℕ) (hf : g.length < f) :
    ∃ f', f - g.length ≤ f' ∧ gap f (g ++ rest) = gap f' rest := by
  induction hg generalizing f with
  | nil => exact ⟨f, by simp, rfl⟩
  | space c g hc _ ih =>
    obtain ⟨k, rfl⟩ : ∃ k, f = k + 1 := ⟨f - 1, by simp at hf; omega⟩
    simp only [List.length_cons] at hf
    obtain ⟨f', h1, h2⟩ := ih (k + 1) (by omega)
    exact ⟨f', by simp; omega, by rw [List.cons_append, gap_space _ _ _ hc, h2]⟩
  | line b g hb hc _ ih =>
    obtain ⟨k, rfl⟩ : ∃ k, f = k + 1 := ⟨f - 1, by simp at hf; omega⟩
    simp only [List.length_append, List.length_cons] at hf
    obtain ⟨f', h1, h2⟩ := ih k (by omega)
    refine ⟨f', by simp; omega, ?_⟩
    rw [List.append_assoc, List.cons_append (a := '\n'), gap_line _ _ _ hb, hc]
    exact h2
  | block b g hb h0 _ ih =>
    obtain ⟨k, rfl⟩ : ∃ k, f = k + 1 := ⟨f - 1, by simp at hf; omega⟩
    simp only [List.length_append, List.length_cons] at hf
    obtain ⟨f', h1, h2⟩ := ih k (by omega)
    refine ⟨f', by simp; omega, ?_⟩
    have := gap_block k b (g ++ rest) hb h0
    rw [show '/' :: '*' :: b ++ '*' :: '/' :: g ++ rest = '/' :: '*' :: b ++ '*' :: '/' :: (g ++ rest) by simp, this]
    exact h2

/-- A text that does not start with white space or a comment. -/
def Solid (l : List Char) : Prop := isSpace (ch l) = false ∧ ¬ (ch l = '/' ∧ (peek l = '/' ∨ peek l = '*'))

theorem gap_solid {l : List Char} (h : Solid l) (f : ℕ) : gap f l = (none, l) := by
  cases f with
  | zero => rfl
  | succ f =>
    have h1 : l.dropWhile isSpace = l := by
      cases l with
      | nil => rfl
      | cons c l =>
        have : isSpace c = false := h.1
        simp [this]
    rw [gap]
    simp only [h1]
    rw [if_neg fun e => h.2 ⟨e.1, .inl e.2⟩, if_neg fun e => h.2 ⟨e.1, .inr e.2⟩]

/-! ### Numbers -/

theorem n0 : '0'.toNat = 48 := rfl
theorem n1 : '1'.toNat = 49 := rfl
theorem na : 'a'.toNat = 97 := rfl
theorem nA : 'A'.toNat = 65 := rfl
theorem nF : 'F'.toNat = 70 := rfl

theorem isDigit_iff {base : ℕ} (hb : base ∈ [2, 8, 10, 16]) (c : Char) :
    isDigit base c = true ↔ isHex c = true ∧ digitVal c < base := by
  have hz : ∀ d : Char, c = d ↔ c.toNat = d.toNat := fun d => ⟨fun e => by rw [e], fun e => Char.toNat_inj.1 e⟩
  simp only [List.mem_cons, List.not_mem_nil, or_false] at hb
  rcases hb with rfl | rfl | rfl | rfl <;>
    simp only [isDigit, isHex, digitVal, isNum, hz, n0, n1, na, nA, Bool.or_eq_true, Bool.and_eq_true, decide_eq_true_eq] <;>
    norm_num <;> split_ifs <;> omega

theorem digit_of {base : ℕ} (hb : base ∈ [2, 8, 10, 16]) {w : List Char} (hw : IsDigits base w) :
    ∀ c ∈ w, (isDigit base c || decide (c = '_')) = true := by
  intro c hc
  rcases hw c hc with rfl | h
  · simp
  · simp [(isDigit_iff hb c).2 h]

theorem parseInt_append (base : ℕ) (s : List Char) (c : Char) :
    parseInt base (s ++ [c]) = parseInt base s * base + if isNum c then (c.toNat - '0'.toNat : ℤ) else (c.toNat - 'a'.toNat + 10 : ℤ) := by
  simp only [parseInt, List.foldl_append, List.foldl_cons, List.foldl_nil]
  split_ifs <;> rfl

/-- Without upper-case digits the scanner computes the number. -/
theorem parseInt_value (base : ℕ) (w : List Char) (hw : IsDigits base w)
    (hu : ∀ c ∈ w, ¬ ('A'.toNat ≤ c.toNat ∧ c.toNat ≤ 'F'.toNat)) :
    parseInt base (w.filter (· ≠ '_')) = value base w := by
  have key : ∀ s : List Char, (∀ c ∈ s, isHex c = true ∧ ¬ ('A'.toNat ≤ c.toNat ∧ c.toNat ≤ 'F'.toNat)) →
      parseInt base s = (Nat.ofDigits base (s.map digitVal).reverse : ℕ) := by
    intro s
    induction s using List.reverseRecOn with
    | nil => intro _; simp [parseInt]
    | append_singleton s c ih =>
      intro h
      have hc := h c (by simp)
      rw [parseInt_append, ih fun d hd => h d (by simp [hd]), List.map_append, List.reverse_append]
      simp only [List.map_cons, List.map_nil, List.reverse_cons, List.reverse_nil, List.nil_append, List.cons_append,
        Nat.ofDigits_cons]
      have : (if isNum c then (c.toNat - '0'.toNat : ℤ) else (c.toNat - 'a'.toNat + 10 : ℤ)) = (digitVal c : ℕ) := by
        have h1 := hc.1
        have h2 := hc.2
        revert h1 h2
        simp only [isHex, digitVal, isNum, n0, na, nA, nF, Bool.or_eq_true, Bool.and_eq_true, decide_eq_true_eq]
        norm_num
        intro h1 h2
        split_ifs <;> omega
      rw [this]
      push_cast
      ring
  refine key _ fun c hc => ?_
  obtain ⟨h1, h2⟩ := List.mem_filter.1 hc
  refine ⟨?_, hu c h1⟩
  rcases hw c h1 with rfl | h
  · simp at h2
  · exact h.1

theorem toI64_small {v : ℕ} (h : v < 2 ^ 63) : toI64 v = v := by
  rw [toI64, Int.bmod_eq_of_le] <;> omega

/-- The characters that may follow a number. -/
def NumStop (rest : List Char) : Prop :=
  isHex (ch rest) = false ∧ ch rest ∉ ['_', '.', 'e', 'E', 'b', 'B', 'o', 'x', 'X']

theorem num_digit {d : Char} (h : isNum d = true) : isHex d = true ∧ digitVal d < 10 := by
  revert h
  simp only [isHex, digitVal, isNum, n0, na, nA, Bool.or_eq_true, Bool.and_eq_true, decide_eq_true_eq]
  norm_num
  intro h1 h2
  split_ifs <;> omega

theorem isDigits_cons {d : Char} {w : List Char} (hd : isNum d = true) (hw : IsDigits 10 w) : IsDigits 10 (d :: w) := by
  intro c hc
  rcases List.mem_cons.1 hc with rfl | hc
  · exact .inr (num_digit hd)
  · exact hw c hc

theorem not_upper {w : List Char} (hw : IsDigits 10 w) : ∀ c ∈ w, ¬ ('A'.toNat ≤ c.toNat ∧ c.toNat ≤ 'F'.toNat) := by
  intro c hc h
  rcases hw c hc with rfl | ⟨-, h2⟩
  · revert h; decide
  · revert h2 h
    simp only [digitVal, isNum, n0, na, nA, nF, Bool.and_eq_true, decide_eq_true_eq]
    norm_num
    intro h1 h2
    split_ifs <;> omega

/-- The end of a run of digits. -/
def Ends (base : ℕ) (rest : List Char) : Prop := (isDigit base (ch rest) || decide (ch rest = '_')) = false

theorem digits_eq {base : ℕ} (hb : base ∈ [2, 8, 10, 16]) {w rest : List Char} (hw : IsDigits base w) (hr : Ends base rest) :
    digits base (w ++ rest) = w.filter (· ≠ '_') ∧ afterDigits base (w ++ rest) = rest :=
  ⟨by rw [digits, takeWhile_stop (digit_of hb hw) hr], by rw [afterDigits, dropWhile_stop (digit_of hb hw) hr]⟩

theorem NumStop.ends {rest : List Char} (h : NumStop rest) {base : ℕ} (hb : base ∈ [2, 8, 10, 16]) : Ends base rest := by
  have h1 : isDigit base (ch rest) = false := by
    by_contra e
    rw [Bool.not_eq_false, isDigit_iff hb] at e
    rw [h.1] at e
    exact absurd e.1 (by simp)
  have h2 : ch rest ≠ '_' := fun e => h.2 (by rw [e]; simp)
  simp [Ends, h1, h2]

/-- No mark of a base at a digit of a decimal number. -/
theorem baseOf_dec {d : Char} {w rest : List Char} (hw : IsDigits 10 w) (hr : ch rest ∉ ['b', 'B', 'o', 'x', 'X']) :
    baseOf (d :: w ++ rest) = (10, d :: w ++ rest) := by
  have key : ch (w ++ rest) ∉ ['b', 'B', 'o', 'x', 'X'] := by
    cases w with
    | nil => exact hr
    | cons a w =>
      have := hw a (by simp)
      change a ∉ _
      intro h
      simp only [List.mem_cons, List.not_mem_nil, or_false] at h
      rcases h with rfl | rfl | rfl | rfl | rfl <;> revert this <;> decide
  simp only [List.mem_cons, List.not_mem_nil, or_false, not_or] at key
  simp only [baseOf, List.cons_append, ch_cons, peek_cons]
  split_ifs <;> simp_all

theorem fraction_exponent {f e rest : List Char} (hf : IsFraction f) (he : IsExponent e) (hr : NumStop rest) :
    fraction 10 (f ++ (e ++ rest)) = (f.filter (· ≠ '_'), e ++ rest) ∧ exponent 10 (e ++ rest) = (e.filter (· ≠ '_'), rest) := by
  have hb : (10 : ℕ) ∈ [2, 8, 10, 16] := by simp
  have hx : exponent 10 (e ++ rest) = (e.filter (· ≠ '_'), rest) := by
    rcases he with rfl | ⟨a, s, d, ds, rfl, ha, hs, hd, hds⟩
    · have h1 : ch rest ≠ 'e' := fun h => hr.2 (by simp [h])
      have h2 : ch rest ≠ 'E' := fun h => hr.2 (by simp [h])
      simp [exponent, h1, h2]
    · obtain ⟨e1, e2⟩ := digits_eq hb (isDigits_cons hd hds) (hr.ends hb)
      have hp : d ≠ '+' := ne_of_p hd (by decide)
      have hm : d ≠ '-' := ne_of_p hd (by decide)
      rw [List.cons_append] at e1 e2
      simp only [List.mem_cons, List.not_mem_nil, or_false] at ha hs
      rcases ha with rfl | rfl <;> rcases hs with rfl | rfl | rfl <;>
        simp [exponent, e1, e2, hp, hm]
  refine ⟨?_, hx⟩
  have he' : Ends 10 (e ++ rest) ∧ ch (e ++ rest) ≠ '.' := by
    rcases he with rfl | ⟨a, s, d, ds, rfl, ha, -⟩
    · exact ⟨hr.ends hb, fun h => hr.2 (by rw [List.nil_append] at h; simp [h])⟩
    · simp only [List.mem_cons, List.not_mem_nil, or_false] at ha
      rcases ha with rfl | rfl <;> simp [Ends] <;> decide
  rcases hf with rfl | ⟨ds, rfl, hds⟩
  · simp [fraction, he'.2]
  · obtain ⟨e1, e2⟩ := digits_eq hb hds he'.1
    simp [fraction, e1, e2]

theorem float_head {f e rest : List Char} (hf : IsFraction f) (he : IsExponent e) (hfe : f ++ e ≠ []) :
    (ch (f ++ (e ++ rest)) = '.' ∨ ch (f ++ (e ++ rest)) = 'e' ∨ ch (f ++ (e ++ rest)) = 'E') := by
  rcases hf with rfl | ⟨ds, rfl, -⟩
  · rcases he with rfl | ⟨a, s, d, ds, rfl, ha, -⟩
    · simp at hfe
    · simp only [List.mem_cons, List.not_mem_nil, or_false] at ha
      rcases ha with rfl | rfl <;> simp
  · simp

theorem ends_of_head {l : List Char} (h : ch l = '.' ∨ ch l = 'e' ∨ ch l = 'E') : Ends 10 l := by
  rw [Ends]
  rcases h with h | h | h <;> rw [h] <;> decide

theorem number_text {w : List Char} {n : Num} (h : NumText w n) {rest : List Char} (hr : NumStop rest) :
    number (w ++ rest) = suffix n rest := by
  have hb : (10 : ℕ) ∈ [2, 8, 10, 16] := by simp
  have hrest : ch rest ∉ ['b', 'B', 'o', 'x', 'X'] := fun h => hr.2 (by
    simp only [List.mem_cons, List.not_mem_nil, or_false] at h ⊢
    tauto)
  have hpt : ¬ (ch rest = '.' ∨ ch rest = 'e' ∨ ch rest = 'E') := fun h => hr.2 (by
    simp only [List.mem_cons, List.not_mem_nil, or_false] at h ⊢
    tauto)
  cases h with
  | dec d w hd hw hv =>
    have hm : d ≠ '-' := ne_of_p hd (by decide)
    obtain ⟨e1, e2⟩ := digits_eq hb (isDigits_cons hd hw) (hr.ends hb)
    have e3 := parseInt_value 10 (d :: w) (isDigits_cons hd hw) (not_upper (isDigits_cons hd hw))
    simp only [number, baseOf_dec hw hrest]
    rw [List.cons_append] at e1 e2 ⊢
    simp only [ch_cons, hm, if_false, e1, e2, hpt, e3, toI64_small hv]
    rfl
  | neg d w hd hw hv =>
    obtain ⟨e1, e2⟩ := digits_eq hb (isDigits_cons hd hw) (hr.ends hb)
    have e3 := parseInt_value 10 (d :: w) (isDigits_cons hd hw) (not_upper (isDigits_cons hd hw))
    have e4 : baseOf ('-' :: d :: w ++ rest) = (10, '-' :: d :: w ++ rest) := by simp [baseOf]
    simp only [number, e4]
    rw [List.cons_append] at e1 e2
    simp only [List.cons_append, ch_cons, if_true, List.tail_cons, e1, e2, hpt, if_false, e3, toI64_small hv]
    rw [if_neg (by omega)]
  | based base mark w hm hw hn hu hv =>
    have hb' : base ∈ [2, 8, 10, 16] := by
      simp only [marks, List.mem_cons, Prod.mk.injEq, List.not_mem_nil, or_false] at hm ⊢
      tauto
    obtain ⟨e1, e2⟩ := digits_eq hb' hw (hr.ends hb')
    have e3 := parseInt_value base w hw hu
    have e4 : baseOf (mark ++ w ++ rest) = (base, w ++ rest) := by
      simp only [marks, List.mem_cons, Prod.mk.injEq, List.not_mem_nil, or_false] at hm
      rcases hm with ⟨rfl, rfl⟩ | ⟨rfl, rfl⟩ | ⟨rfl, rfl⟩ | ⟨rfl, rfl⟩ | ⟨rfl, rfl⟩ <;> simp [baseOf]
    have e5 : ch (w ++ rest) ≠ '-' := by
      cases w with
      | nil => exact absurd rfl hn
      | cons a w =>
        rintro (rfl : a = '-')
        rcases hw '-' (by simp) with h | h
        · exact absurd h (by decide)
        · exact absurd h.1 (by decide)
    simp only [number, e4, e5, if_false, e1, e2, hpt, e3, toI64_small hv]
    rfl
  | float d w f e hd hw hf he hfe =>
    have hm : d ≠ '-' := ne_of_p hd (by decide)
    obtain ⟨h1, h2⟩ := fraction_exponent hf he hr
    have h3 := float_head (rest := rest) hf he hfe
    have h4 : Ends 10 (f ++ (e ++ rest)) := ends_of_head h3
    obtain ⟨e1, e2⟩ := digits_eq hb (isDigits_cons hd hw) h4
    have e0 : d :: w ++ f ++ e ++ rest = d :: w ++ (f ++ (e ++ rest)) := by simp
    have hx : ch (f ++ (e ++ rest)) ∉ ['b', 'B', 'o', 'x', 'X'] := by
      rcases h3 with h | h | h <;> rw [h] <;> decide
    rw [e0]
    simp only [number, baseOf_dec hw hx]
    rw [List.cons_append] at e1 e2 ⊢
    simp only [ch_cons, hm, if_false, e1, e2, h3, if_true, h1, h2, List.filter_append]
  | negFloat d w f e hd hw hf he hfe =>
    obtain ⟨h1, h2⟩ := fraction_exponent hf he hr
    have h3 := float_head (rest := rest) hf he hfe
    have h4 : Ends 10 (f ++ (e ++ rest)) := ends_of_head h3
    obtain ⟨e1, e2⟩ := digits_eq hb (isDigits_cons hd hw) h4
    have e0 : '-' :: (d :: w ++ f ++ e) ++ rest = '-' :: (d :: w ++ (f ++ (e ++ rest))) := by simp
    have e4 : ∀ l, baseOf ('-' :: l) = (10, '-' :: l) := fun l => by simp [baseOf]
    rw [e0]
    simp only [number, e4, ch_cons, if_true, List.tail_cons, e1, e2, h3, h1, h2, List.filter_append]
  | point d w e hd hw he =>
    obtain ⟨h1, h2⟩ := fraction_exponent (f := '.' :: d :: w) (.inr ⟨_, rfl, isDigits_cons hd hw⟩) he hr
    have e0 : '.' :: d :: w ++ e ++ rest = '.' :: d :: w ++ (e ++ rest) := by simp
    have e4 : ∀ l, baseOf ('.' :: l) = (10, '.' :: l) := fun l => by simp [baseOf]
    have e1 : ∀ l, digits 10 ('.' :: l) = [] := fun l => by simp [digits, isDigit, isNum]
    have e2 : ∀ l, afterDigits 10 ('.' :: l) = '.' :: l := fun l => by simp [afterDigits, isDigit, isNum]
    have e5 : ∀ l : List Char, (if '.' = '-' then (true, l.tail) else (false, l)) = (false, l) := fun l => if_neg (by decide)
    rw [e0]
    rw [List.cons_append] at h1 ⊢
    simp only [number, e4, ch_cons, e5, e1, e2, true_or, if_true, h1, h2, List.filter_append, List.nil_append]

/-! ### Tokens -/

theorem suffix_plain (n : Num) {rest : List Char} (h : isId (ch rest) = false) : suffix n rest = .tok (.num n) rest := by
  have key : ∀ c : Char, isId c = true → ch rest ≠ c := by
    rintro c hc e
    rw [e, hc] at h
    exact absurd h (by simp)
  rw [suffix, if_neg]
  simp [hasSuffix, key 's' (by decide), key 'm' (by decide), key 'u' (by decide), key 'n' (by decide), key 'p' (by decide),
    key 'd' (by decide)]

theorem suffix_unit (n : Num) {u : List Char} {k : ℕ} (h : (u, k) ∈ units) (rest : List Char) :
    suffix n (u ++ rest) = .tok (.timing n k) rest := by
  simp only [units, List.mem_cons, Prod.mk.injEq, List.not_mem_nil, or_false] at h
  rcases h with ⟨rfl, rfl⟩ | ⟨rfl, rfl⟩ | ⟨rfl, rfl⟩ | ⟨rfl, rfl⟩ | ⟨rfl, rfl⟩ <;> simp [suffix, hasSuffix]

theorem stop_plain {rest : List Char} (h : isId (ch rest) = false) (hp : ch rest ≠ '.') : NumStop rest := by
  have key : ∀ c : Char, isId c = true → ch rest ≠ c := by
    rintro c hc e
    rw [e, hc] at h
    exact absurd h (by simp)
  refine ⟨?_, ?_⟩
  · by_contra e
    rw [Bool.not_eq_false] at e
    refine absurd h ?_
    revert e
    simp only [isHex, isId, isFirstId, isNum, Bool.or_eq_true, Bool.and_eq_true, decide_eq_true_eq, Bool.not_eq_false]
    omega
  · simp [hp, key '_' (by decide), key 'e' (by decide), key 'E' (by decide), key 'b' (by decide), key 'B' (by decide),
      key 'o' (by decide), key 'x' (by decide), key 'X' (by decide)]

theorem stop_unit {u : List Char} {k : ℕ} (h : (u, k) ∈ units) (rest : List Char) : NumStop (u ++ rest) := by
  simp only [units, List.mem_cons, Prod.mk.injEq, List.not_mem_nil, or_false] at h
  rcases h with ⟨rfl, rfl⟩ | ⟨rfl, rfl⟩ | ⟨rfl, rfl⟩ | ⟨rfl, rfl⟩ | ⟨rfl, rfl⟩ <;> exact ⟨by rw [List.cons_append, ch_cons]; decide, by rw [List.cons_append, ch_cons]; decide⟩

theorem firstId_solid {c : Char} (h : isFirstId c = true) : isSpace c = false ∧ c ≠ '/' := by
  refine ⟨?_, ne_of_p h (by decide)⟩
  simp [isSpace, ne_of_p h (show isFirstId ' ' = false by decide), ne_of_p h (show isFirstId '\t' = false by decide),
    ne_of_p h (show isFirstId '\r' = false by decide), ne_of_p h (show isFirstId '\n' = false by decide)]

theorem num_solid {c : Char} (h : isNum c = true) : isSpace c = false ∧ c ≠ '/' ∧ isFirstId c = false := by
  refine ⟨?_, ne_of_p h (by decide), ?_⟩
  · simp [isSpace, ne_of_p h (show isNum ' ' = false by decide), ne_of_p h (show isNum '\t' = false by decide),
      ne_of_p h (show isNum '\r' = false by decide), ne_of_p h (show isNum '\n' = false by decide)]
  · have h' : c ≠ '_' := ne_of_p h (by decide)
    revert h
    simp only [isFirstId, isNum, Bool.and_eq_true, decide_eq_true_eq, Bool.or_eq_false_iff, Bool.and_eq_false_iff,
      decide_eq_false_iff_not, h', not_false_eq_true, and_true]
    omega

theorem solid_head {c : Char} {l : List Char} (h : isSpace c = false ∧ c ≠ '/') : Solid (c :: l) :=
  ⟨h.1, fun e => h.2 e.1⟩

theorem numText_head {w : List Char} {n : Num} (h : NumText w n) (rest : List Char) :
    Solid (w ++ rest) ∧ isFirstId (ch (w ++ rest)) = false ∧
    (isNum (ch (w ++ rest)) || (ch (w ++ rest) = '.' && isNum (peek (w ++ rest))) ||
      (ch (w ++ rest) = '-' && isNum (peek (w ++ rest)))) = true ∧ w ≠ [] := by
  cases h with
  | dec d w hd hw hv => exact ⟨solid_head ⟨(num_solid hd).1, (num_solid hd).2.1⟩, (num_solid hd).2.2, by simp [hd], by simp⟩
  | neg d w hd hw hv => exact ⟨solid_head (by decide), by simp; decide, by simp [hd], by simp⟩
  | based base mark w hm hw hn hu hv =>
    simp only [marks, List.mem_cons, Prod.mk.injEq, List.not_mem_nil, or_false] at hm
    rcases hm with ⟨rfl, rfl⟩ | ⟨rfl, rfl⟩ | ⟨rfl, rfl⟩ | ⟨rfl, rfl⟩ | ⟨rfl, rfl⟩ <;>
      exact ⟨solid_head (by decide), by simp; decide, by simp; decide, by simp⟩
  | float d w f e hd hw hf he hfe =>
    exact ⟨solid_head ⟨(num_solid hd).1, (num_solid hd).2.1⟩, (num_solid hd).2.2, by simp [hd], by simp⟩
  | negFloat d w f e hd hw hf he hfe => exact ⟨solid_head (by decide), by simp; decide, by simp [hd], by simp⟩
  | point d w e hd hw he => exact ⟨solid_head (by decide), by simp; decide, by simp [hd], by simp⟩

theorem token_number {w : List Char} {n : Num} (h : NumText w n) {rest : List Char} (hr : NumStop rest) :
    token (w ++ rest) = suffix n rest := by
  obtain ⟨-, h1, h2, -⟩ := numText_head h rest
  rw [token, if_neg (by simp [h1]), if_pos h2, number_text h hr]

theorem token_name {c : Char} {w rest : List Char} (hc : isFirstId c = true) (hw : ∀ a ∈ w, isId a = true)
    (hr : isId (ch rest) = false) :
    token (c :: w ++ rest) = .tok (if c :: w ∈ keywords then .keyword (c :: w) else .ident (c :: w)) rest := by
  have hall : ∀ a ∈ c :: w, isId a = true := by
    intro a ha
    rcases List.mem_cons.1 ha with rfl | ha
    · simp [isId, hc]
    · exact hw a ha
  rw [token, if_pos (by simpa using hc), name, takeWhile_stop hall hr, dropWhile_stop hall hr]

theorem keyword_name : ∀ w ∈ keywords, w = "#dim".toList ∨ (isFirstId (ch w) = true ∧ w.tail.all isId = true ∧ w ≠ []) := by
  decide +kernel

theorem longer {w rest : List Char} (h : ∀ o ∈ ['/', '/'] :: ['/', '*'] :: operators, o <+: w ++ rest → o.length ≤ w.length)
    (c : Char) (hc : w ++ [c] ∈ ['/', '/'] :: ['/', '*'] :: operators) (h0 : c ≠ '\x00') : ch rest ≠ c := by
  rintro rfl
  cases rest with
  | nil => exact h0 rfl
  | cons a l =>
    have := h _ hc ⟨l, by simp⟩
    simp at this

/-- The characters that continue an operator. -/
def specials : List Char := ['=', '>', '+', '*', '/', '|', '&', '<']

/-- A character as far as `punct` looks at it. -/
def nrm (c : Char) : Char := if c ∈ specials then c else 'A'

theorem nrm_nrm (c : Char) : nrm (nrm c) = nrm c := by
  by_cases h : c ∈ specials
  · simp [nrm, h]
  · simp only [nrm, h, if_false]
    decide

theorem nrm_mem (c : Char) : nrm c ∈ 'A' :: specials := by
  by_cases h : c ∈ specials
  · simp [nrm, h]
  · simp [nrm, h]

theorem nrm_eq {c d : Char} (hd : d ∈ specials) : nrm c = d ↔ c = d := by
  by_cases h : c ∈ specials
  · simp [nrm, h]
  · rw [nrm, if_neg h]
    refine ⟨?_, fun e => absurd (e ▸ hd) h⟩
    rintro rfl
    exact absurd hd (by decide)

theorem punct_nrm (c p q : Char) : punct c p q = punct c (nrm p) (nrm q) := by
  simp only [punct, nrm_eq (show '=' ∈ specials by decide), nrm_eq (show '>' ∈ specials by decide),
    nrm_eq (show '+' ∈ specials by decide), nrm_eq (show '*' ∈ specials by decide), nrm_eq (show '|' ∈ specials by decide),
    nrm_eq (show '&' ∈ specials by decide), nrm_eq (show '<' ∈ specials by decide)]

/-- The switch takes the longest operator. -/
theorem punct_table : ∀ w ∈ operators, ∀ p ∈ 'A' :: specials, ∀ q ∈ 'A' :: specials,
    (∀ c ∈ specials, w ++ [c] ∈ ['/', '/'] :: ['/', '*'] :: operators → p ≠ c) →
    punct (ch w) (nrm (peek (w ++ [p, q]))) (nrm (peek (w ++ [p, q]).tail)) = some w ∧
      (ch w ≠ '/' ∨ (nrm (peek (w ++ [p, q])) ≠ '/' ∧ nrm (peek (w ++ [p, q])) ≠ '*')) := by
  decide +kernel

theorem operator_head : ∀ w ∈ operators, w ≠ [] ∧ w.length ≤ 3 ∧ isSpace (ch w) = false ∧ isFirstId (ch w) = false ∧
    isNum (ch w) = false ∧ ch w ∉ ['$', '"', '\'', '\x00'] ∧ (ch w = '-' → w = ['-'] ∨ ch w.tail ∈ ['>', '=']) ∧
    (ch w = '.' → w = ['.']) := by
  decide +kernel

theorem punct_longest {w : List Char} (hw : w ∈ operators) {rest : List Char}
    (h : ∀ o ∈ ['/', '/'] :: ['/', '*'] :: operators, o <+: w ++ rest → o.length ≤ w.length) :
    punct (ch (w ++ rest)) (peek (w ++ rest)) (peek (w ++ rest).tail) = some w ∧ Solid (w ++ rest) := by
  have key := longer h
  obtain ⟨hn, hl, hsp, -⟩ := operator_head w hw
  have e0 : ch (w ++ rest) = ch w := by
    cases w with
    | nil => exact absurd rfl hn
    | cons a w => rfl
  obtain ⟨e1, e2⟩ : nrm (peek (w ++ rest)) = nrm (peek (w ++ [nrm (ch rest), nrm (peek rest)])) ∧
      nrm (peek (w ++ rest).tail) = nrm (peek (w ++ [nrm (ch rest), nrm (peek rest)]).tail) := by
    match w, hn, hl with
    | [a], _, _ => exact ⟨(nrm_nrm _).symm, (nrm_nrm _).symm⟩
    | [a, b], _, _ => exact ⟨rfl, (nrm_nrm _).symm⟩
    | [a, b, c], _, _ => exact ⟨rfl, rfl⟩
  obtain ⟨h1, h2⟩ := punct_table w hw (nrm (ch rest)) (nrm_mem _) (nrm (peek rest)) (nrm_mem _) (by
    intro c hc hcw
    rw [Ne, nrm_eq hc]
    exact key c hcw fun e => absurd hc (by rw [e]; decide))
  rw [← e1] at h2
  refine ⟨by rw [e0, punct_nrm, e1, e2, h1], by rw [e0]; exact hsp, ?_⟩
  rw [e0]
  rintro ⟨hs, hp⟩
  rcases h2 with h2 | h2
  · exact h2 hs
  · rcases hp with hp | hp
    · exact h2.1 (by rw [hp]; decide)
    · exact h2.2 (by rw [hp]; decide)

/-- The scanner finds a token. -/
theorem token_lex {w : List Char} {t : Tok} (h : Lex w t) {rest : List Char} (hs : Stops w rest t) :
    token (w ++ rest) = .tok t rest ∧ Solid (w ++ rest) ∧ w ≠ [] ∧ t ≠ .eof := by
  cases h with
  | ident c w hc hw hk =>
    exact ⟨by rw [token_name hc hw hs, if_neg hk], solid_head (firstId_solid hc), by simp, by simp⟩
  | keyword w hk hd =>
    rcases keyword_name w hk with h | ⟨h1, h2, h3⟩
    · exact absurd h hd
    cases w with
    | nil => exact absurd rfl h3
    | cons c w =>
      exact ⟨by rw [token_name (c := c) (w := w) h1 (List.all_eq_true.1 h2) hs, if_pos hk], solid_head (firstId_solid h1), by simp, by simp⟩
  | num w n h =>
    refine ⟨?_, (numText_head h rest).1, (numText_head h rest).2.2.2, by simp⟩
    rw [token_number h (stop_plain hs.1 hs.2), suffix_plain n hs.1]
  | timing w n h u k hu =>
    rw [List.append_assoc]
    refine ⟨?_, (numText_head h (u ++ rest)).1, ?_, by simp⟩
    · rw [token_number h (stop_unit hu rest), suffix_unit n hu]
    · simp [(numText_head h rest).2.2.2]
  | hardware w hw hv =>
    refine ⟨?_, solid_head (by decide), by simp, by simp⟩
    have e1 := parseInt_value 10 w (fun c hc => .inr (num_digit (hw c hc))) (not_upper fun c hc => .inr (num_digit (hw c hc)))
    have e2 : w.filter (· ≠ '_') = w := List.filter_eq_self.2 fun c hc => by simp [ne_of_p (hw c hc) (show isNum '_' = false by decide)]
    rw [e2] at e1
    rw [token, if_neg (by simp; decide), if_neg (by simp; decide), if_pos (by simp)]
    simp only [hardware, expect, List.cons_append, ch_cons, if_true, List.tail_cons]
    rw [takeWhile_stop hw hs, dropWhile_stop hw hs, e1, if_pos (by exact_mod_cast hv)]
  | str d w hd hw =>
    have hd' : isFirstId d = false ∧ isNum d = false ∧ d ≠ '.' ∧ d ≠ '-' ∧ d ≠ '$' ∧ (d = '"' ∨ d = '\'') ∧ isSpace d = false ∧ d ≠ '/' := by
      simp only [List.mem_cons, List.not_mem_nil, or_false] at hd
      rcases hd with rfl | rfl <;> decide
    obtain ⟨h1, h2, h3, h4, h5, h6, h7, h8⟩ := hd'
    refine ⟨?_, solid_head ⟨h7, h8⟩, by simp, by simp⟩
    have hall : ∀ a ∈ w, decide (a ≠ d) = true := fun a ha => by
      simp only [decide_eq_true_eq]
      rintro rfl
      exact hw ha
    have e : d :: w ++ [d] ++ rest = d :: (w ++ d :: rest) := by simp
    have e1 := takeWhile_stop (p := fun a => decide (a ≠ d)) (rest := d :: rest) hall (by simp)
    have e2 := dropWhile_stop (p := fun a => decide (a ≠ d)) (rest := d :: rest) hall (by simp)
    rw [e, token, if_neg (by simp [h1]), if_neg (by simp [h2, h3, h4]), if_neg (by simp [h5]), if_pos (by simpa using h6), string]
    simp only [e1, e2]
    simp
  | punct w hw =>
    obtain ⟨hn, -, -, h1, h2, h3, h4, h5⟩ := operator_head w hw
    obtain ⟨hp, hso⟩ := punct_longest hw hs.1
    refine ⟨?_, hso, hn, by simp⟩
    have e0 : ch (w ++ rest) = ch w := by
      cases w with
      | nil => exact absurd rfl hn
      | cons a w => rfl
    simp only [List.mem_cons, List.not_mem_nil, or_false, not_or] at h3
    have e3 : ¬ ((isNum (ch (w ++ rest)) || (ch (w ++ rest) = '.' && isNum (peek (w ++ rest))) ||
        (ch (w ++ rest) = '-' && isNum (peek (w ++ rest)))) = true) := by
      rw [e0, h2]
      simp only [Bool.false_or, Bool.or_eq_true, Bool.and_eq_true, decide_eq_true_eq, not_or, not_and, Bool.not_eq_true]
      constructor
      · intro hc
        have := h5 hc
        subst this
        exact hs.2 (.inr rfl)
      · intro hc
        rcases h4 hc with rfl | h
        · exact hs.2 (.inl rfl)
        · match w, hn, h with
          | [a], _, h => exact absurd h (by simp)
          | a :: b :: w, _, h =>
            change isNum b = false
            simp only [List.tail_cons, ch_cons, List.mem_cons, List.not_mem_nil, or_false] at h
            rcases h with rfl | rfl <;> decide
    rw [token, if_neg (by simp [e0, h1]), if_neg e3, if_neg (by rw [e0]; exact h3.1), if_neg (by rw [e0]; tauto),
      if_neg (by rw [e0]; exact h3.2.2.2), hp]
    simp

/-! ### Texts -/

theorem next_token {g w rest : List Char} {t : Tok} (hg : Gap g) (h : Lex w t) (hs : Stops w rest t) :
    next (g ++ (w ++ rest)) = .tok t rest := by
  obtain ⟨h1, h2, -, -⟩ := token_lex h hs
  obtain ⟨f', -, h3⟩ := gap_skip hg (w ++ rest) ((g ++ (w ++ rest)).length + 1) (by simp; omega)
  rw [next, h3, gap_solid h2]
  exact h1

theorem next_comment {g b rest : List Char} {t : Tok} (hg : Gap g) (hb : ∀ c ∈ b, c ≠ '\n' ∧ c ≠ '\x00')
    (hc : classify ('/' :: '/' :: b) = some t) : next (g ++ ('/' :: '/' :: b ++ '\n' :: rest)) = .tok t rest := by
  obtain ⟨f', hf', h3⟩ := gap_skip hg ('/' :: '/' :: b ++ '\n' :: rest) ((g ++ ('/' :: '/' :: b ++ '\n' :: rest)).length + 1)
    (by simp; omega)
  obtain ⟨k, rfl⟩ : ∃ k, f' = k + 1 := ⟨f' - 1, by simp at hf'; omega⟩
  rw [next, h3, gap_line _ _ _ hb, hc]

theorem solid_nil : Solid [] := ⟨by decide, by decide⟩

theorem next_done {g : List Char} (hg : Gap g) : next g = .tok .eof [] := by
  obtain ⟨f', -, h3⟩ := gap_skip hg [] (g.length + 1) (by omega)
  rw [List.append_nil] at h3
  rw [next, h3, gap_solid solid_nil]
  rfl

theorem next_doneLine {g b : List Char} (hg : Gap g) (hb : ∀ c ∈ b, c ≠ '\n' ∧ c ≠ '\x00')
    (hc : classify ('/' :: '/' :: b) = none) : next (g ++ ('/' :: '/' :: b)) = .tok .eof [] := by
  obtain ⟨f', hf', h3⟩ := gap_skip hg ('/' :: '/' :: b) ((g ++ ('/' :: '/' :: b)).length + 1) (by simp; omega)
  obtain ⟨k, rfl⟩ : ∃ k, f' = k + 1 := ⟨f' - 1, by simp at hf'; omega⟩
  rw [next, h3, gap_doneLine _ _ hb hc, gap_solid solid_nil]
  rfl

theorem scanF_cons {f : ℕ} {l r : List Char} {t : Tok} {ts : List Tok} (ht : t ≠ .eof) (hn : next l = .tok t r)
    (hr : scanF f r = .ok ts) : scanF (f + 1) l = .ok (t :: ts) := by
  rw [scanF, hn]
  cases t <;> first | exact absurd rfl ht | simp [hr]

theorem classify_ne_eof {s : List Char} {t : Tok} (h : classify s = some t) : t ≠ .eof := by
  unfold classify at h
  split_ifs at h <;> cases h <;> simp

theorem scanF_text {l : List Char} {ts : List Tok} (h : Text l ts) (f : ℕ) (hf : l.length < f) : scanF f l = .ok ts := by
  induction h generalizing f with
  | done g hg =>
    obtain ⟨k, rfl⟩ : ∃ k, f = k + 1 := ⟨f - 1, by omega⟩
    rw [scanF, next_done hg]
  | doneLine g b hg hb hc =>
    obtain ⟨k, rfl⟩ : ∃ k, f = k + 1 := ⟨f - 1, by omega⟩
    rw [scanF, next_doneLine hg hb hc]
  | token g w rest t ts hg hl hs _ ih =>
    obtain ⟨k, rfl⟩ : ∃ k, f = k + 1 := ⟨f - 1, by omega⟩
    obtain ⟨-, -, hn, ht⟩ := token_lex hl hs
    have := List.length_pos_of_ne_nil hn
    simp only [List.length_append] at hf
    exact scanF_cons ht (next_token hg hl hs) (ih k (by omega))
  | comment g b rest t ts hg hb hc _ ih =>
    obtain ⟨k, rfl⟩ : ∃ k, f = k + 1 := ⟨f - 1, by omega⟩
    simp only [List.length_append, List.length_cons] at hf
    exact scanF_cons (classify_ne_eof hc) (next_comment hg hb hc) (ih k (by omega))

/-! ### The bounds on the recursion are not reached -/

theorem length_dropWhile_le (p : Char → Bool) (l : List Char) : (l.dropWhile p).length ≤ l.length :=
  (List.dropWhile_sublist p).length_le

theorem skipBlock_le (l : List Char) : (skipBlock l).length ≤ l.length := by
  induction l with
  | nil => simp [skipBlock]
  | cons c l ih =>
    rw [skipBlock]
    split_ifs
    · exact le_rfl
    · simp only [List.length_cons]
      omega

theorem expect_le (c : Char) (l : List Char) : (expect c l).length ≤ l.length := by
  rw [expect]
  split_ifs <;> simp

theorem pos_of_ch {l : List Char} {c : Char} (h : ch l = c) (h0 : c ≠ '\x00') : 0 < l.length := by
  cases l with
  | nil => exact absurd h.symm h0
  | cons a l => simp

/-- The text after a comment is shorter. -/
theorem line_lt {l : List Char} (h : ch l = '/') :
    (afterLine l).length < l.length := by
  cases l with
  | nil => exact absurd h (by decide)
  | cons a l =>
    have : a = '/' := h
    subst this
    have e : ('/' :: l).dropWhile inLine = l.dropWhile inLine := by simp [inLine]
    have := length_dropWhile_le inLine l
    rw [afterLine, e]
    split_ifs <;> simp only [List.length_tail, List.length_cons] <;> omega

theorem block_lt {l : List Char} (h : ch l = '/') :
    (expect '/' (expect '*' (skipBlock (l.drop 2)))).length < l.length := by
  have h0 := pos_of_ch h (by decide)
  have h1 := expect_le '/' (expect '*' (skipBlock (l.drop 2)))
  have h2 := expect_le '*' (skipBlock (l.drop 2))
  have h3 := skipBlock_le (l.drop 2)
  simp only [List.length_drop] at h3
  omega

/-- Any two bounds beyond the length of the text give the same. -/
theorem gap_fuel (l : List Char) (f f' : ℕ) (h : l.length < f) (h' : l.length < f') : gap f l = gap f' l := by
  induction hn : l.length using Nat.strong_induction_on generalizing l f f' with
  | _ n ih =>
    obtain ⟨k, rfl⟩ : ∃ k, f = k + 1 := ⟨f - 1, by omega⟩
    obtain ⟨k', rfl⟩ : ∃ k, f' = k + 1 := ⟨f' - 1, by omega⟩
    have hd := length_dropWhile_le isSpace l
    rw [gap, gap]
    split_ifs with h1 h2
    · split
      · rfl
      · have := line_lt h1.1
        exact ih _ (by omega) _ _ _ (by omega) (by omega) rfl
    · have := block_lt h2.1
      exact ih _ (by omega) _ _ _ (by omega) (by omega) rfl
    · rfl

theorem gap_le (f : ℕ) (l : List Char) : (gap f l).2.length ≤ l.length ∧ ((gap f l).1.isSome → (gap f l).2.length < l.length) := by
  induction f generalizing l with
  | zero => simp [gap]
  | succ f ih =>
    have hd := length_dropWhile_le isSpace l
    rw [gap]
    split_ifs with h1 h2
    · have := line_lt h1.1
      split
      · exact ⟨by simp only; omega, fun _ => by simp only; omega⟩
      · have h3 := ih (afterLine (l.dropWhile isSpace))
        exact ⟨by omega, fun e => by have := h3.2 e; omega⟩
    · have := block_lt h2.1
      have h3 := ih (expect '/' (expect '*' (skipBlock ((l.dropWhile isSpace).drop 2))))
      exact ⟨by omega, fun e => by have := h3.2 e; omega⟩
    · exact ⟨hd, by simp⟩

/-- The text left by an outcome. -/
def Outcome.Left (n : ℕ) : Outcome → Prop
  | .tok t r => t = .eof ∨ r.length < n
  | _ => True

theorem suffix_left (n : Num) {l : List Char} {k : ℕ} (h : l.length < k) : (suffix n l).Left k := by
  unfold suffix
  split_ifs <;> simp [Outcome.Left] <;> omega

theorem afterDigits_le (base : ℕ) (l : List Char) : (afterDigits base l).length ≤ l.length := length_dropWhile_le _ _

theorem fraction_le (base : ℕ) (l : List Char) : (fraction base l).2.length ≤ l.length := by
  rw [fraction]
  have := afterDigits_le base l.tail
  simp only [List.length_tail] at this
  split_ifs
  · simp only
    omega
  · exact le_rfl

theorem exponent_le (base : ℕ) (l : List Char) : (exponent base l).2.length ≤ l.length := by
  have h1 := afterDigits_le base l.tail
  have h2 := afterDigits_le base l.tail.tail
  simp only [List.length_tail] at h1 h2
  unfold exponent
  simp only
  split_ifs
  · simp only
    omega
  · simp only
    omega
  · exact le_rfl

theorem number_left {l : List Char} (h : (isNum (ch l) || (ch l = '.' && isNum (peek l)) || (ch l = '-' && isNum (peek l))) = true) :
    (number l).Left l.length := by
  have hpos : 0 < l.length := by
    cases l with
    | nil => exact absurd h (by decide)
    | cons a l => simp
  obtain ⟨base, l1, hb, hl1⟩ : ∃ base l1, baseOf l = (base, l1) ∧ (l1.length < l.length ∨ (base = 10 ∧ l1 = l)) := by
    unfold baseOf
    split_ifs <;> refine ⟨_, _, rfl, ?_⟩ <;> simp <;> omega
  obtain ⟨neg, l2, hn, hl2⟩ : ∃ neg l2, (if ch l1 = '-' then (true, l1.tail) else (false, l1)) = (neg, l2) ∧
      (l2.length < l.length ∨ (base = 10 ∧ l2 = l ∧ ch l ≠ '-')) := by
    split_ifs with hm
    · refine ⟨_, _, rfl, .inl ?_⟩
      have := pos_of_ch hm (by decide)
      rcases hl1 with h1 | ⟨-, rfl⟩ <;> simp <;> omega
    · refine ⟨_, _, rfl, ?_⟩
      rcases hl1 with h1 | ⟨h1, rfl⟩
      · exact .inl h1
      · exact .inr ⟨h1, rfl, hm⟩
  have ha : (afterDigits base l2).length < l.length ∨ (base = 10 ∧ afterDigits base l2 = l ∧ ch l = '.') := by
    rcases hl2 with h2 | ⟨rfl, rfl, hm⟩
    · exact .inl ((afterDigits_le base l2).trans_lt h2)
    · cases l2 with
      | nil => simp at hpos
      | cons a l =>
        by_cases hd : isNum a = true
        · left
          have : afterDigits 10 (a :: l) = afterDigits 10 l := by simp [afterDigits, isDigit, hd]
          rw [this]
          have := afterDigits_le 10 l
          simp; omega
        · right
          have hm' : a ≠ '-' := hm
          have : a = '.' := by
            simp [hd, hm'] at h
            exact of_decide_eq_true h.1
          subst this
          exact ⟨rfl, by simp [afterDigits, isDigit, isNum], rfl⟩
  unfold number
  simp only [hb, hn]
  split_ifs with h1 h2 h3
  · have hx := exponent_le base (fraction base (afterDigits base l2)).2
    have hf := fraction_le base (afterDigits base l2)
    refine suffix_left _ ?_
    rcases ha with ha | ⟨-, ha, hp⟩
    · omega
    · have : (fraction base (afterDigits base l2)).2.length < l.length := by
        rw [ha, fraction, if_pos hp]
        have := afterDigits_le base l.tail
        simp at *
        omega
      omega
  · trivial
  all_goals
    refine suffix_left _ ?_
    rcases ha with ha | ⟨-, ha, hp⟩
    · exact ha
    · rw [ha, hp] at h1
      exact absurd h1 (by simp)

theorem punct_ne (c p q : Char) : punct c p q ≠ some [] := by
  have key : ∀ (P : Prop) [Decidable P] (a b : Option (List Char)), a ≠ some [] → b ≠ some [] → (if P then a else b) ≠ some [] := by
    intro P _ a b ha hb
    split
    · exact ha
    · exact hb
  unfold punct
  repeat' apply key
  all_goals exact fun h => by cases h

theorem token_left (l : List Char) : (token l).Left l.length := by
  unfold token
  split_ifs with h1 h2 h3 h4 h5
  · right
    cases l with
    | nil => exact absurd h1 (by decide)
    | cons a l =>
      have : isFirstId a = true := h1
      have := length_dropWhile_le isId l
      simp [isId, *] at *
      omega
  · exact number_left h2
  · have hp := pos_of_ch h3 (by decide)
    have h6 := length_dropWhile_le isNum l.tail
    simp only [hardware, expect, h3, if_true]
    split_ifs
    · right
      simp at h6
      omega
    · trivial
  · cases l with
    | nil => trivial
    | cons d l =>
      simp only [string]
      split_ifs with h6
      · trivial
      · right
        have := length_dropWhile_le (fun a => decide (a ≠ d)) l
        simp only [List.length_tail, List.length_cons]
        omega
  · exact .inl rfl
  · have hp : 0 < l.length := by
      cases l with
      | nil => exact absurd rfl h5
      | cons a l => simp
    split
    · rename_i s hs
      right
      have : s ≠ [] := by
        rintro rfl
        exact punct_ne _ _ _ hs
      have := List.length_pos_of_ne_nil this
      simp
      omega
    · right
      simp
      omega

/-- `next` returns the end of the text, or makes it shorter. -/
theorem next_left (l : List Char) : (next l).Left l.length := by
  have h := gap_le (l.length + 1) l
  unfold next
  split
  · rename_i t r e
    rw [e] at h
    exact .inr (h.2 rfl)
  · rename_i r e
    rw [e] at h
    have := token_left r
    cases ht : token r with
    | tok t r' =>
      rw [ht] at this
      rcases this with h' | h'
      · exact .inl h'
      · exact .inr (h'.trans_le h.1)
    | loop => trivial
    | ub => trivial

/-- Any two bounds beyond the length of the text give the same. -/
theorem scanF_fuel (l : List Char) (f f' : ℕ) (h : l.length < f) (h' : l.length < f') : scanF f l = scanF f' l := by
  induction hn : l.length using Nat.strong_induction_on generalizing l f f' with
  | _ n ih =>
    obtain ⟨k, rfl⟩ : ∃ k, f = k + 1 := ⟨f - 1, by omega⟩
    obtain ⟨k', rfl⟩ : ∃ k, f' = k + 1 := ⟨f' - 1, by omega⟩
    have hl := next_left l
    rw [scanF, scanF]
    cases hx : next l with
    | tok t r =>
      rw [hx] at hl
      rcases hl with rfl | hl
      · rfl
      · have e := ih r.length (by omega) r k k' (by omega) (by omega) rfl
        cases t <;> simp only [e]
    | loop => rfl
    | ub => rfl

end MQT.QASM.Scanner
