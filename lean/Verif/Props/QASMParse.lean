/-
Properties of the expression parser (C62).
-/
import Verif.QASM.Parse

set_option autoImplicit false

namespace MQT.QASM.Parse

variable {A : Type}

/-- **C62.** The text of an expression with the parentheses that the precedence rules of the language ask for is read back
as the expression exactly if the expression is `Safe`.
Missing from C62: the expressions that are not (`c62_wrong`). -/
theorem c62_partial (e : Ex A) : parse (print 0 e) = some (e, []) ↔ Safe true 0 0 e = true := by
  have nil : Stop 0 ([] : List (Tok A)) := fun o t h => by cases h
  constructor
  · intro h
    obtain ⟨pre, e1, h⟩ := parse_sound h
    rw [List.append_nil] at e1
    exact text_print _ _ _ _ (e1 ▸ h)
  · intro h
    simpa using parse_text (print_text _ _ _ _ h) [] nil

/-- Expressions of sums, differences, products, quotients, functions, and powers whose exponent is not a power. -/
def Arith : Ex A → Bool
  | .atom _ => true
  | .fn _ e => Arith e
  | .un _ _ => false
  | .bin .pow l r => Arith l && Arith r && (match r with | .bin .pow _ _ => false | _ => true)
  | .bin (.cmp _) _ _ => false
  | .bin _ l r => Arith l && Arith r

/-- **C62.** In particular every such expression. -/
theorem c62_arith (e : Ex A) (h : Arith e = true) : parse (print 0 e) = some (e, []) := by
  rw [c62_partial]
  have key : ∀ e : Ex A, Arith e = true → (∀ s, Safe s 0 0 e = true ∧ Safe s 0 2 e = true) ∧ (∀ s, Safe s 1 3 e = true) ∧
      (∀ s, Safe s 2 3 e = true) ∧ (∀ s k, Safe s k 4 e = true ∨ ∃ l r, e = .bin .pow l r ∧ Safe s 3 4 e = true) ∧ ∀ s k, Safe s k 6 e = true := by
    intro e
    induction e with
    | atom a => intro _; simp [Safe]
    | un o e ih => intro h; simp [Arith] at h
    | fn f e ih =>
      intro h
      have h0 := ((ih h).1 true).1
      simp [Safe, h0]
    | bin o l r ihl ihr =>
      intro h
      cases o with
      | cmp c => simp [Arith] at h
      | pow =>
        simp only [Arith, Bool.and_eq_true] at h
        obtain ⟨⟨hl, hr⟩, hn⟩ := h
        obtain ⟨-, -, -, -, l6⟩ := ihl hl
        obtain ⟨-, -, -, r4, r6⟩ := ihr hr
        have r4 : Safe false 4 4 r = true := by
          rcases r4 false 4 with h | ⟨a, b, rfl, _⟩
          · exact h
          · simp at hn
        simp [Safe, BOp.prec, BOp.precL, BOp.precR, BOp.lvl, l6, r4]
      | _ =>
        simp only [Arith, Bool.and_eq_true] at h
        obtain ⟨l0, l1, l2, l4, l6⟩ := ihl h.1
        obtain ⟨r0, r1, r2, r4, r6⟩ := ihr h.2
        have r34 : Safe false 3 4 r = true := by
          rcases r4 false 3 with h | ⟨a, b, _, h⟩ <;> exact h
        simp [Safe, BOp.prec, BOp.precL, BOp.precR, BOp.lvl, l0, l2, r1, r34]
  exact ((key e h).1 true).1

/-- **C62.** With parentheses around every operand any expression is read back, whatever follows that is not an operator. -/
theorem c62_full (e : Ex A) (rest : List (Tok A)) (h : ∀ o t, rest ≠ .bop o :: t) : parse (printFull e ++ rest) = some (e, rest) :=
  parse_text (printFull_text e _ _) rest fun o t ht => absurd ht (h o t)

/-- **C62.** The grammar of the code: it reads the texts of `Text`, and nothing else; every expression has one. -/
theorem c62_grammar :
    (∀ (e : Ex A) (ts : List (Tok A)), parse ts = some (e, []) ↔ Text true 0 e ts) ∧
    ∀ e : Ex A, parse (printCode true 0 e) = some (e, []) := by
  have nil : Stop 0 ([] : List (Tok A)) := fun o t h => by cases h
  refine ⟨fun e ts => ⟨fun h => ?_, fun h => by simpa using parse_text h [] nil⟩, fun e => by
    simpa using parse_text (printCode_text e true 0) [] nil⟩
  obtain ⟨pre, e1, h⟩ := parse_sound h
  rw [List.append_nil] at e1
  exact e1 ▸ h

/-- **C62.** So no text is one of two expressions. -/
theorem c62_unambiguous (e e' : Ex A) (ts : List (Tok A)) (h : Text true 0 e ts) (h' : Text true 0 e' ts) : e = e' := by
  have h1 := (c62_grammar.1 e ts).2 h
  rw [(c62_grammar.1 e' ts).2 h'] at h1
  cases h1
  rfl

section examples

namespace Demo

def a : Ex ℕ := .atom 0
def b : Ex ℕ := .atom 1
def c : Ex ℕ := .atom 2

/-- `sin(a - b) * (b + c) / a ^ (b * c) - (a - c)`. -/
def big : Ex ℕ :=
  .bin .sub (.bin .div (.bin .mul (.fn .sin (.bin .sub a b)) (.bin .add b c)) (.bin .pow a (.bin .mul b c))) (.bin .sub a c)

example : Arith big = true ∧ (print 0 big).length = 26 := by decide
example : parse (print 0 big) = some (big, []) := by decide +kernel

/-- A text with a comparison, one with negations, that are read as the rules say: `a * b == c`, `-a + b * -c`. -/
example : parse (print 0 (Ex.bin (.cmp .eq) (.bin .mul a b) c)) = some (.bin (.cmp .eq) (.bin .mul a b) c, []) ∧
    parse (print 0 (Ex.bin .add (.un .neg a) (.bin .mul b (.un .neg c)))) = some (.bin .add (.un .neg a) (.bin .mul b (.un .neg c)), []) := by
  decide +kernel

/-- **C62 fails.** `a + b == c` is read as `a + (b == c)`, `a ^ b ^ c` as `(a ^ b) ^ c`, `-a * b` as `-(a * b)`,
`a + -b ^ c` as `a + (-b) ^ c` and `a == b < c` as `(a == b) < c`; of `-a == b` only `-a` is read; and `a * !b` is an error. -/
theorem c62_wrong :
    (print 0 (.bin (.cmp .eq) (.bin .add a b) c) = [.atom 0, .bop .add, .atom 1, .bop (.cmp .eq), .atom 2] ∧
      parse (print 0 (.bin (.cmp .eq) (.bin .add a b) c)) = some (.bin .add a (.bin (.cmp .eq) b c), [])) ∧
    (print 0 (.bin .pow a (.bin .pow b c)) = [.atom 0, .bop .pow, .atom 1, .bop .pow, .atom 2] ∧
      parse (print 0 (.bin .pow a (.bin .pow b c))) = some (.bin .pow (.bin .pow a b) c, [])) ∧
    (print 0 (.bin .mul (.un .neg a) b) = [.bop .sub, .atom 0, .bop .mul, .atom 1] ∧
      parse (print 0 (.bin .mul (.un .neg a) b)) = some (.un .neg (.bin .mul a b), [])) ∧
    (print 0 (.bin .add a (.un .neg (.bin .pow b c))) = [.atom 0, .bop .add, .bop .sub, .atom 1, .bop .pow, .atom 2] ∧
      parse (print 0 (.bin .add a (.un .neg (.bin .pow b c)))) = some (.bin .add a (.bin .pow (.un .neg b) c), [])) ∧
    (print 0 (.bin (.cmp .eq) a (.bin (.cmp .lt) b c)) = [.atom 0, .bop (.cmp .eq), .atom 1, .bop (.cmp .lt), .atom 2] ∧
      parse (print 0 (.bin (.cmp .eq) a (.bin (.cmp .lt) b c))) = some (.bin (.cmp .lt) (.bin (.cmp .eq) a b) c, [])) ∧
    parse (print 0 (.bin (.cmp .eq) (.un .neg a) b)) = some (.un .neg a, [.bop (.cmp .eq), .atom 1]) ∧
    parse (print 0 (.bin .mul a (.un .lnot b))) = none := by decide +kernel

end Demo

end examples

end MQT.QASM.Parse
