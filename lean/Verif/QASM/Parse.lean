/-
The expression parser (`exponentiation`, `factor`, `term`, `comparison`, `parseExpression`, src/qasm3/Parser.cpp
654-822).

Tokens come as a list; the end of the list is the end of the file.  A literal (integer, floating point, `true`, `false`) or
an identifier is one token, an element of an arbitrary type; an index after an identifier (`a[i]`) is left out.  A thrown
error is `none`.
-/
import Mathlib.Data.List.Basic
import Mathlib.Tactic.Linarith

set_option autoImplicit false

namespace MQT.QASM.Parse

variable {A : Type}

/-! ### Model -/

inductive Cmp
  | eq | ne | lt | gt | le | ge
  deriving DecidableEq

inductive Fn
  | sin | cos | tan | exp | ln | sqrt
  deriving DecidableEq

/-- The binary operators the parser makes. -/
inductive BOp
  | pow | mul | div | cmp (c : Cmp) | add | sub
  deriving DecidableEq

/-- The unary operators that are written as a prefix. -/
inductive UOp
  | neg | lnot | bnot
  deriving DecidableEq

inductive Tok (A : Type)
  | atom (a : A)
  | bop (o : BOp)
  | bang
  | tilde
  | fn (f : Fn)
  | lpar
  | rpar
  | other (n : ℕ)
  deriving DecidableEq

/-- The token of a prefix operator; the minus sign is the one of the subtraction. -/
def UOp.tok : UOp → Tok A
  | .neg => .bop .sub
  | .lnot => .bang
  | .bnot => .tilde

inductive Ex (A : Type)
  | atom (a : A)
  | un (o : UOp) (e : Ex A)
  | fn (f : Fn) (e : Ex A)
  | bin (o : BOp) (l r : Ex A)
  deriving DecidableEq

/-- A parsing function: an expression and the tokens left. -/
abbrev P (A : Type) := List (Tok A) → Option (Ex A × List (Tok A))

/-- The loop `while (current is one of the operators) { scan(); y = p(); x = x op y; }`.  Every turn takes a token, so
the number of tokens bounds the turns. -/
def loop (p : P A) (ops : BOp → Bool) : ℕ → Ex A → P A
  | m + 1, x, .bop o :: ts =>
    if ops o then
      match p ts with
      | some (y, ts') => loop p ops m (.bin o x y) ts'
      | none => none
    else some (x, .bop o :: ts)
  | _, x, ts => some (x, ts)

/-- `p` and then the loop. -/
def chain (p : P A) (ops : BOp → Bool) : P A := fun ts =>
  match p ts with
  | some (x, ts') => loop p ops ts'.length x ts'
  | none => none

/-- `factor` (Parser.cpp 731-739). -/
def factor (expo : P A) : P A := chain expo fun o => o = .pow

/-- `term` (Parser.cpp 741-753). -/
def term (expo : P A) : P A := chain (factor expo) fun o => o = .mul ∨ o = .div

/-- `comparison` (Parser.cpp 755-791). -/
def comparison (expo : P A) : P A := chain (term expo) fun o => match o with | .cmp _ => true | _ => false

/-- The operators of `parseExpression`. -/
def sumOps (o : BOp) : Bool := o = .add ∨ o = .sub

/-- `x = UnaryExpression{o, p()}`. -/
def unary (o : UOp) (p : P A) : P A := fun ts => (p ts).map fun r => (.un o r.1, r.2)

/-- The first part of `parseExpression` (Parser.cpp 794-809). -/
def expressionHead (expo : P A) : P A
  | .bop .sub :: ts => unary .neg (term expo) ts
  | .bang :: ts => unary .lnot (term expo) ts
  | .tilde :: ts => unary .bnot (term expo) ts
  | ts => comparison expo ts

/-- `parseExpression` (Parser.cpp 793-822). -/
def expression (expo : P A) : P A := fun ts =>
  match expressionHead expo ts with
  | some (x, ts') => loop (comparison expo) sumOps ts'.length x ts'
  | none => none

/-- `exponentiation` (Parser.cpp 654-729).  The first argument bounds the recursion; the number of tokens is enough
(`expo_fuel`). -/
def expo : ℕ → P A
  | n + 1, .bop .sub :: ts => unary .neg (expo n) ts
  | _ + 1, .atom a :: ts => some (.atom a, ts)
  | n + 1, .lpar :: ts =>
    match expression (expo n) ts with
    | some (x, .rpar :: ts') => some (x, ts')
    | _ => none
  | n + 1, .fn f :: .lpar :: ts =>
    match expression (expo n) ts with
    | some (x, .rpar :: ts') => some (.fn f x, ts')
    | _ => none
  | _, _ => none

/-- `parseExpression` on a list of tokens. -/
def parse (ts : List (Tok A)) : Option (Ex A × List (Tok A)) := expression (expo ts.length) ts

/-! ### Specification: the texts of an expression by the rules of the language -/

/-- The precedence of an operator in OpenQASM: from equality and comparison up to the power; a prefix operator has 4,
anything else 6. -/
def BOp.prec : BOp → ℕ
  | .cmp .eq => 0
  | .cmp .ne => 0
  | .cmp _ => 1
  | .add => 2
  | .sub => 2
  | .mul => 3
  | .div => 3
  | .pow => 5

/-- What the left operand must bind at least as tightly as: the power associates to the right, the others to the left. -/
def BOp.precL : BOp → ℕ
  | .pow => 6
  | o => o.prec

/-- What the right operand must bind at least as tightly as; on the right of a power a prefix operator needs no
parentheses. -/
def BOp.precR : BOp → ℕ
  | .pow => 4
  | o => o.prec + 1

def paren (ts : List (Tok A)) : List (Tok A) := .lpar :: (ts ++ [.rpar])

/-- Printing with parentheses where the rules need them; the text must bind at least as tightly as `p`. -/
def print (p : ℕ) : Ex A → List (Tok A)
  | .atom a => [.atom a]
  | .fn f e => .fn f :: paren (print 0 e)
  | .un o e => if p ≤ 4 then o.tok :: print 4 e else paren (o.tok :: print 4 e)
  | .bin o l r =>
    if p ≤ o.prec then print o.precL l ++ .bop o :: print o.precR r
    else paren (print o.precL l ++ .bop o :: print o.precR r)

/-- Printing with parentheses around every operand that is not an atom or a function call. -/
def printFull : Ex A → List (Tok A)
  | .atom a => [.atom a]
  | .fn f e => .fn f :: paren (printFull e)
  | .un o e => paren (o.tok :: printFull e)
  | .bin o l r => paren (printFull l ++ .bop o :: printFull r)

/-! ### The grammar of the code -/

/-- The levels of the code: sums below comparisons below products below powers below the rest. -/
def BOp.lvl : BOp → ℕ
  | .add => 0
  | .sub => 0
  | .cmp _ => 1
  | .mul => 2
  | .div => 2
  | .pow => 3

/-- `Text s k e ts`: the tokens `ts` are a text of `e` for the code, of level at least `k`, standing at the start of an
expression if `s`.  At the start a prefix operator takes a whole product; elsewhere only a minus can come, and takes one
factor. -/
inductive Text : Bool → ℕ → Ex A → List (Tok A) → Prop
  | atom (s : Bool) (k : ℕ) (a : A) : Text s k (.atom a) [.atom a]
  | fn (s : Bool) (k : ℕ) (f : Fn) {e : Ex A} {ts : List (Tok A)} : Text true 0 e ts → Text s k (.fn f e) (.fn f :: paren ts)
  | paren (s : Bool) (k : ℕ) {e : Ex A} {ts : List (Tok A)} : Text true 0 e ts → Text s k e (paren ts)
  | un (o : UOp) {e : Ex A} {ts : List (Tok A)} : Text false 2 e ts → Text true 0 (.un o e) (o.tok :: ts)
  | minus (k : ℕ) {e : Ex A} {ts : List (Tok A)} : Text false 4 e ts → Text false k (.un .neg e) (.bop .sub :: ts)
  | bin (s : Bool) (k : ℕ) (o : BOp) {l r : Ex A} {ts ts' : List (Tok A)} : k ≤ o.lvl → Text s o.lvl l ts → Text false (o.lvl + 1) r ts' →
      Text s k (.bin o l r) (ts ++ .bop o :: ts')

/-- Printing with the parentheses the code needs. -/
def printCode : Bool → ℕ → Ex A → List (Tok A)
  | _, _, .atom a => [.atom a]
  | _, _, .fn f e => .fn f :: paren (printCode true 0 e)
  | s, k, .un o e =>
    if s = true ∧ k = 0 then o.tok :: printCode false 2 e
    else if s = false ∧ o = .neg then .bop .sub :: printCode false 4 e
    else paren (o.tok :: printCode false 2 e)
  | s, k, .bin o l r =>
    if k ≤ o.lvl then printCode s o.lvl l ++ .bop o :: printCode false (o.lvl + 1) r
    else paren (printCode true o.lvl l ++ .bop o :: printCode false (o.lvl + 1) r)

/-- Whether the text by the rules of the language is one for the code: the conditions are that an operator the rules leave
without parentheses does not need any for the code. -/
def Safe : Bool → ℕ → ℕ → Ex A → Bool
  | _, _, _, .atom _ => true
  | _, _, _, .fn _ e => Safe true 0 0 e
  | s, k, p, .un o e =>
    if p ≤ 4 then
      if s then k = 0 && Safe false 2 4 e else o = .neg && Safe false 4 4 e
    else Safe false 2 4 e
  | s, k, p, .bin o l r =>
    if p ≤ o.prec then k ≤ o.lvl && Safe s o.lvl o.precL l && Safe false (o.lvl + 1) o.precR r
    else Safe true o.lvl o.precL l && Safe false (o.lvl + 1) o.precR r

/-! ### Consumption and fuel -/

def Shrinks (p : P A) : Prop := ∀ ts x r, p ts = some (x, r) → r.length < ts.length

theorem loop_length {p : P A} (hp : Shrinks p) (ops : BOp → Bool) (m : ℕ) (x : Ex A) (ts : List (Tok A)) (y : Ex A) (r : List (Tok A))
    (h : loop p ops m x ts = some (y, r)) : r.length ≤ ts.length := by
  induction m generalizing x ts with
  | zero => simp only [loop, Option.some.injEq, Prod.mk.injEq] at h; rw [h.2]
  | succ m ih =>
    unfold loop at h
    split at h
    · obtain rfl := Nat.succ.inj ‹m + 1 = Nat.succ _›
      split at h
      · split at h
        · next y' ts'' e =>
          have h1 := ih _ _ h
          have h2 := hp _ _ _ e
          simp only [List.length_cons]
          omega
        · cases h
      · simp only [Option.some.injEq, Prod.mk.injEq] at h; rw [← h.2]
    · simp only [Option.some.injEq, Prod.mk.injEq] at h; rw [h.2]

theorem chain_shrinks {p : P A} (hp : Shrinks p) (ops : BOp → Bool) : Shrinks (chain p ops) := by
  intro ts x r h
  unfold chain at h
  split at h
  · next y ts' e => exact (loop_length hp ops _ _ _ _ _ h).trans_lt (hp _ _ _ e)
  · cases h

theorem unary_some {o : UOp} {p : P A} {ts : List (Tok A)} {x : Ex A} {r : List (Tok A)} (h : unary o p ts = some (x, r)) :
    ∃ y, p ts = some (y, r) ∧ x = .un o y := by
  unfold unary at h
  cases e : p ts with
  | none => rw [e] at h; cases h
  | some q =>
    rw [e] at h
    simp only [Option.map_some, Option.some.injEq, Prod.mk.injEq] at h
    exact ⟨q.1, by rw [← h.2], h.1.symm⟩

theorem term_shrinks {E : P A} (hE : Shrinks E) : Shrinks (term E) := chain_shrinks (chain_shrinks hE _) _

theorem comparison_shrinks {E : P A} (hE : Shrinks E) : Shrinks (comparison E) := chain_shrinks (term_shrinks hE) _

theorem expressionHead_shrinks {E : P A} (hE : Shrinks E) : Shrinks (expressionHead E) := by
  intro ts x r h
  unfold expressionHead at h
  split at h
  iterate 3
    obtain ⟨y, h, -⟩ := unary_some h
    have := term_shrinks hE _ _ _ h
    simp only [List.length_cons]
    omega
  exact comparison_shrinks hE _ _ _ h

theorem expression_shrinks {E : P A} (hE : Shrinks E) : Shrinks (expression E) := by
  intro ts x r h
  unfold expression at h
  split at h
  · next y ts' e => exact (loop_length (comparison_shrinks hE) _ _ _ _ _ _ h).trans_lt (expressionHead_shrinks hE _ _ _ e)
  · cases h

theorem expo_shrinks (n : ℕ) : Shrinks (expo n : P A) := by
  induction n with
  | zero => intro ts x r h; simp [expo] at h
  | succ n ih =>
    intro ts x r h
    unfold expo at h
    split at h
    · obtain rfl := Nat.succ.inj ‹n + 1 = Nat.succ _›
      obtain ⟨y, h, -⟩ := unary_some h
      have := ih _ _ _ h
      simp only [List.length_cons]
      omega
    · simp only [Option.some.injEq, Prod.mk.injEq] at h
      rw [h.2]
      simp
    · obtain rfl := Nat.succ.inj ‹n + 1 = Nat.succ _›
      split at h
      · next e =>
        have := expression_shrinks ih _ _ _ e
        simp only [Option.some.injEq, Prod.mk.injEq] at h
        rw [← h.2]
        simp only [List.length_cons] at *
        omega
      · cases h
    · obtain rfl := Nat.succ.inj ‹n + 1 = Nat.succ _›
      split at h
      · next e =>
        have := expression_shrinks ih _ _ _ e
        simp only [Option.some.injEq, Prod.mk.injEq] at h
        rw [← h.2]
        simp only [List.length_cons] at *
        omega
      · cases h
    · cases h

theorem loop_fuel {p : P A} (hp : Shrinks p) (ops : BOp → Bool) (m : ℕ) (x : Ex A) (ts : List (Tok A)) (h : ts.length ≤ m) :
    loop p ops m x ts = loop p ops ts.length x ts := by
  induction m using Nat.strong_induction_on generalizing x ts with
  | _ m ih =>
    cases ts with
    | nil => cases m <;> rfl
    | cons t ts =>
      simp only [List.length_cons] at h
      obtain ⟨m, rfl⟩ : ∃ k, m = k + 1 := ⟨m - 1, by omega⟩
      cases t with
      | bop o =>
        simp only [loop, List.length_cons]
        cases e : p ts with
        | none => rfl
        | some q =>
          obtain ⟨y, ts'⟩ := q
          have h1 := hp _ _ _ e
          simp only []
          rw [ih m (by omega) _ _ (by omega), ih ts.length (by omega) _ _ (by omega)]
      | _ => rfl

/-- The two agree on the texts of at most so many tokens. -/
def Agree (k : ℕ) (p q : P A) : Prop := ∀ ts : List (Tok A), ts.length ≤ k → p ts = q ts

theorem loop_agree {k : ℕ} {p q : P A} (h : Agree k p q) (hp : Shrinks p) (ops : BOp → Bool) (m : ℕ) (x : Ex A)
    (ts : List (Tok A)) (hk : ts.length ≤ k) : loop p ops m x ts = loop q ops m x ts := by
  induction m generalizing x ts with
  | zero => rfl
  | succ m ih =>
    cases ts with
    | nil => rfl
    | cons t ts =>
      simp only [List.length_cons] at hk
      cases t with
      | bop o =>
        simp only [loop, ← h ts (by omega)]
        cases e : p ts with
        | none => rfl
        | some r =>
          obtain ⟨y, ts'⟩ := r
          have h1 := hp _ _ _ e
          simp only []
          rw [ih _ _ (by omega)]
      | _ => rfl

theorem chain_agree {k : ℕ} {p q : P A} (h : Agree k p q) (hp : Shrinks p) (ops : BOp → Bool) :
    Agree k (chain p ops) (chain q ops) := by
  intro ts hk
  simp only [chain, ← h ts hk]
  cases e : p ts with
  | none => rfl
  | some r =>
    obtain ⟨y, ts'⟩ := r
    have h1 := hp _ _ _ e
    exact loop_agree h hp _ _ _ _ (by omega)

theorem expression_agree {k : ℕ} {E E' : P A} (h : Agree k E E') (hp : Shrinks E) :
    Agree k (expression E) (expression E') := by
  have ht : Agree k (term E) (term E') := chain_agree (chain_agree h hp _) (chain_shrinks hp _) _
  have hc : Agree k (comparison E) (comparison E') := chain_agree ht (term_shrinks hp) _
  have hh : Agree k (expressionHead E) (expressionHead E') := by
    intro ts hk
    unfold expressionHead
    split
    iterate 3
      simp only [unary]
      rw [ht _ (by simp only [List.length_cons] at hk; omega)]
    exact hc _ hk
  intro ts hk
  simp only [expression, ← hh ts hk]
  cases e : expressionHead E ts with
  | none => rfl
  | some r =>
    obtain ⟨y, ts'⟩ := r
    have h1 := expressionHead_shrinks hp _ _ _ e
    exact loop_agree hc (comparison_shrinks hp) _ _ _ _ (by omega)

/-- More fuel than tokens changes nothing. -/
theorem expo_fuel (n : ℕ) : Agree n (expo n : P A) (expo (n + 1)) := by
  induction n with
  | zero =>
    intro ts h
    obtain rfl := List.length_eq_zero_iff.1 (Nat.le_zero.1 h)
    rfl
  | succ n ih =>
    intro ts h
    have hx := expression_agree ih (expo_shrinks n)
    cases ts with
    | nil => rfl
    | cons t ts =>
      simp only [List.length_cons] at h
      cases t with
      | bop o =>
        cases o with
        | sub => simp only [expo, unary, ih ts (by omega)]
        | _ => rfl
      | atom a => rfl
      | lpar => simp only [expo, hx ts (by omega)]
      | fn f =>
        cases ts with
        | nil => rfl
        | cons t ts =>
          cases t with
          | lpar =>
            simp only [List.length_cons] at h
            simp only [expo, hx ts (by omega)]
          | _ => rfl
      | _ => rfl

/-- So the fuel of `parse` is as good as any larger one. -/
theorem parse_fuel (ts : List (Tok A)) (n : ℕ) (h : ts.length ≤ n) : expression (expo n) ts = parse ts := by
  induction n, h using Nat.le_induction with
  | base => rfl
  | succ n hn ih => rw [← ih]; exact (expression_agree (expo_fuel n) (expo_shrinks n) ts hn).symm

/-! ### Reading the texts -/

/-- The parsing functions by level. -/
def lev (E : P A) : ℕ → P A
  | 0 => chain (comparison E) fun o => o.lvl = 0
  | 1 => chain (term E) fun o => o.lvl = 1
  | 2 => chain (factor E) fun o => o.lvl = 2
  | 3 => chain E fun o => o.lvl = 3
  | _ => E

theorem lev3 (E : P A) : lev E 3 = factor E := by
  have h : (fun o : BOp => decide (o.lvl = 3)) = fun o => decide (o = .pow) := by
    funext o; cases o <;> rfl
  show chain E (fun o => decide (o.lvl = 3)) = _
  rw [h, factor]

theorem lev2 (E : P A) : lev E 2 = term E := by
  have h : (fun o : BOp => decide (o.lvl = 2)) = fun o => decide (o = .mul ∨ o = .div) := by
    funext o; cases o <;> rfl
  show chain (factor E) (fun o => decide (o.lvl = 2)) = _
  rw [h, term]

theorem lev1 (E : P A) : lev E 1 = comparison E := by
  have h : (fun o : BOp => decide (o.lvl = 1)) = fun o => match o with | .cmp _ => true | _ => false := by
    funext o; cases o <;> rfl
  show chain (term E) (fun o => decide (o.lvl = 1)) = _
  rw [h, comparison]

theorem lev_eq (E : P A) {k : ℕ} (h : k ≤ 3) : lev E k = chain (lev E (k + 1)) fun o => o.lvl = k := by
  obtain rfl | rfl | rfl | rfl : k = 0 ∨ k = 1 ∨ k = 2 ∨ k = 3 := by omega
  · rw [lev1]; rfl
  · rw [lev2]; rfl
  · rw [lev3]; rfl
  · rfl

theorem lev_shrinks {E : P A} (hE : Shrinks E) (k : ℕ) : Shrinks (lev E k) := by
  unfold lev
  split
  · exact chain_shrinks (comparison_shrinks hE) _
  · exact chain_shrinks (term_shrinks hE) _
  · exact chain_shrinks (chain_shrinks hE _) _
  · exact chain_shrinks hE _
  · exact hE

/-- Going on after an expression of level at least `k` has been read. -/
def cont (E : P A) (k : ℕ) (e : Ex A) (ts : List (Tok A)) : Option (Ex A × List (Tok A)) :=
  if k ≤ 3 then loop (lev E (k + 1)) (fun o => o.lvl = k) ts.length e ts else some (e, ts)

/-- The text does not go on with an operator of level `k` or more. -/
def Stop (k : ℕ) (ts : List (Tok A)) : Prop := ∀ o t, ts = .bop o :: t → o.lvl < k

theorem cont_stop (E : P A) {k : ℕ} (e : Ex A) {ts : List (Tok A)} (h : Stop k ts) : cont E k e ts = some (e, ts) := by
  unfold cont
  split
  · cases ts with
    | nil => rfl
    | cons t ts =>
      cases t with
      | bop o =>
        have := h o ts rfl
        simp only [List.length_cons, loop]
        rw [if_neg (by simp; omega)]
      | _ => rfl
  · rfl

theorem cont_step {E : P A} (hE : Shrinks E) (o : BOp) (l r : Ex A) {ts rest : List (Tok A)}
    (h : lev E (o.lvl + 1) ts = some (r, rest)) : cont E o.lvl l (.bop o :: ts) = cont E o.lvl (.bin o l r) rest := by
  have h3 : o.lvl ≤ 3 := by cases o <;> simp [BOp.lvl]
  have := lev_shrinks hE _ _ _ _ h
  simp only [cont, if_pos h3, List.length_cons, loop, h, decide_true, if_true]
  exact loop_fuel (lev_shrinks hE _) _ _ _ _ (by omega)

theorem lift {E : P A} {j k : ℕ} {e : Ex A} {ts rest : List (Tok A)} (hjk : k ≤ j) (hj : j ≤ 4) (hs : Stop (k + 1) rest)
    (h : lev E j ts = cont E j e rest) : lev E k ts = cont E k e rest := by
  induction j, hjk using Nat.le_induction with
  | base => exact h
  | succ j hkj ih =>
    refine ih (by omega) ?_
    rw [lev_eq E (by omega), chain, h, cont_stop E e (fun o t ht => lt_of_lt_of_le (hs o t ht) (by omega)), cont, if_pos (by omega)]

/-- A token that is not a prefix operator. -/
def Tok.Plain (t : Tok A) : Prop := t ≠ .bop .sub ∧ t ≠ .bang ∧ t ≠ .tilde

theorem expression_plain (E : P A) {t : Tok A} (h : t.Plain) (ts : List (Tok A)) : expression E (t :: ts) = lev E 0 (t :: ts) := by
  have hh : expressionHead E (t :: ts) = comparison E (t :: ts) := by
    unfold expressionHead
    split
    · exact absurd ‹_› (by simpa using fun h1 => absurd h1 h.1)
    · exact absurd ‹_› (by simpa using fun h1 => absurd h1 h.2.1)
    · exact absurd ‹_› (by simpa using fun h1 => absurd h1 h.2.2)
    · rfl
  have ho : sumOps = fun o : BOp => decide (o.lvl = 0) := by funext o; cases o <;> rfl
  simp only [expression, hh, lev, chain, ho]

theorem expression_un (E : P A) (o : UOp) {e : Ex A} {ts rest : List (Tok A)} (h : term E ts = some (e, rest)) :
    expression E (o.tok :: ts) = cont E 0 (.un o e) rest := by
  have ho : sumOps = fun o : BOp => decide (o.lvl = 0) := by funext o; cases o <;> rfl
  cases o <;> simp [expression, expressionHead, unary, UOp.tok, h, cont, lev1, ho]

theorem Text.plain {s : Bool} {k : ℕ} {e : Ex A} {ts : List (Tok A)} (h : Text s k e ts) (hs : s = true) (hk : 1 ≤ k) :
    ∃ t ts', ts = t :: ts' ∧ t.Plain := by
  induction h with
  | atom s k a => exact ⟨_, _, rfl, by simp [Tok.Plain]⟩
  | fn s k f _ _ => exact ⟨_, _, rfl, by simp [Tok.Plain]⟩
  | paren s k _ _ => exact ⟨_, _, rfl, by simp [Tok.Plain]⟩
  | un o _ _ => omega
  | minus k _ _ => cases hs
  | bin s k o hl _ _ ih _ =>
    obtain ⟨t, ts', rfl, h⟩ := ih hs (by omega)
    exact ⟨t, _, rfl, h⟩

/-- Reading a text and what follows. -/
theorem read {s : Bool} {k : ℕ} {e : Ex A} {ts : List (Tok A)} (h : Text s k e ts) (hk : k ≤ 4) (n : ℕ) (rest : List (Tok A))
    (hn : (ts ++ rest).length ≤ n) (hs : Stop (k + 1) rest) :
    (s = false ∨ 1 ≤ k → lev (expo n) k (ts ++ rest) = cont (expo n) k e rest) ∧
    (s = true → k = 0 → expression (expo n) (ts ++ rest) = cont (expo n) 0 e rest) := by
  have up : ∀ {s : Bool} {k n : ℕ} {e : Ex A} {t : Tok A} {ts rest : List (Tok A)}, k ≤ 4 → Stop (k + 1) rest → t.Plain →
      expo n (t :: ts) = some (e, rest) → (s = false ∨ 1 ≤ k → lev (expo n) k (t :: ts) = cont (expo n) k e rest) ∧
        (s = true → k = 0 → expression (expo n) (t :: ts) = cont (expo n) 0 e rest) := by
    intro s k n e t ts rest hk hs ht h
    have := lift (E := expo n) (e := e) (ts := t :: ts) hk le_rfl hs (by rw [cont, if_neg (by omega)]; exact h)
    exact ⟨fun _ => this, fun _ h0 => by subst h0; rw [expression_plain _ ht, this]⟩
  have inpar : ∀ {n : ℕ} {e : Ex A} {ts rest : List (Tok A)}, (∀ n rest, (ts ++ rest).length ≤ n → Stop 1 rest →
      expression (expo n) (ts ++ rest) = cont (expo n) 0 e rest) → (ts ++ .rpar :: rest).length ≤ n →
      expression (expo n) (ts ++ .rpar :: rest) = some (e, .rpar :: rest) := by
    intro n e ts rest h hn
    have hs : ∀ k, Stop k (.rpar :: rest) := fun k o t h => by cases h
    rw [h n _ hn (hs 1), cont_stop _ _ (hs 0)]
  induction h generalizing n rest with
  | atom s k a =>
    refine up hk hs (by simp [Tok.Plain]) ?_
    simp only [List.cons_append, List.nil_append, List.length_cons] at hn
    obtain ⟨n, rfl⟩ : ∃ m, n = m + 1 := ⟨n - 1, by omega⟩
    rfl
  | @fn s k f e ts _ ih =>
    have hp : ∀ {ts : List (Tok A)}, paren ts ++ rest = .lpar :: (ts ++ .rpar :: rest) := by intro ts; simp [paren]
    rw [List.cons_append, hp] at hn ⊢
    refine up hk hs (by simp [Tok.Plain]) ?_
    simp only [List.length_cons] at hn
    obtain ⟨n, rfl⟩ : ∃ m, n = m + 1 := ⟨n - 1, by omega⟩
    simp only [expo]
    rw [inpar (fun n rest h1 h2 => (ih (by omega) n rest h1 h2).2 rfl rfl) (by simp only [List.length_append, List.length_cons] at hn ⊢; omega)]
  | @paren s k e ts _ ih =>
    have hp : ∀ {ts : List (Tok A)}, paren ts ++ rest = .lpar :: (ts ++ .rpar :: rest) := by intro ts; simp [paren]
    rw [hp] at hn ⊢
    refine up hk hs (by simp [Tok.Plain]) ?_
    simp only [List.length_cons] at hn
    obtain ⟨n, rfl⟩ : ∃ m, n = m + 1 := ⟨n - 1, by omega⟩
    simp only [expo]
    rw [inpar (fun n rest h1 h2 => (ih (by omega) n rest h1 h2).2 rfl rfl) (by simp only [List.length_append, List.length_cons] at hn ⊢; omega)]
  | @un o e ts _ ih =>
    refine ⟨fun h => by simp at h, fun _ _ => ?_⟩
    refine expression_un (ts := ts ++ rest) _ o ?_
    have h2 : Stop 2 rest := fun o t ht => lt_of_lt_of_le (hs o t ht) (by omega)
    rw [← lev2, (ih (by omega) n rest (by simp only [List.length_append, List.length_cons] at hn ⊢; omega)
      (fun o t ht => lt_of_lt_of_le (hs o t ht) (by omega))).1 (Or.inl rfl), cont_stop _ _ h2]
  | @minus k e ts _ ih =>
    refine ⟨fun _ => ?_, fun h => by cases h⟩
    refine lift (j := 4) hk le_rfl hs ?_
    rw [cont, if_neg (by omega)]
    simp only [List.length_append, List.length_cons] at hn
    obtain ⟨n, rfl⟩ : ∃ m, n = m + 1 := ⟨n - 1, by omega⟩
    have h4 := (ih le_rfl n rest (by simp only [List.length_append]; omega) (fun o t ht => lt_of_lt_of_le (hs o t ht) (by omega))).1 (Or.inl rfl)
    rw [cont, if_neg (by omega)] at h4
    show unary .neg (expo n) (ts ++ rest) = _
    have h4' : expo n (ts ++ rest) = some (e, rest) := h4
    simp only [unary, h4', Option.map_some]
  | @bin s k o l r ts ts' hko hl hr ihl ihr =>
    have h3 : o.lvl ≤ 3 := by cases o <;> simp [BOp.lvl]
    have hlen : (ts ++ .bop o :: (ts' ++ rest)).length ≤ n := by
      simp only [List.length_append, List.length_cons] at hn ⊢; omega
    have happ : ts ++ Tok.bop o :: ts' ++ rest = ts ++ .bop o :: (ts' ++ rest) := by simp
    have hso : Stop (o.lvl + 1) (.bop o :: (ts' ++ rest)) := by
      intro o' t h; cases h; omega
    have hr' : lev (expo n) (o.lvl + 1) (ts' ++ rest) = some (r, rest) := by
      rw [(ihr (by omega) n rest (by simp only [List.length_append, List.length_cons] at hn ⊢; omega)
        (fun o t ht => lt_of_lt_of_le (hs o t ht) (by omega))).1 (Or.inl rfl), cont_stop _ _ (fun o t ht => lt_of_lt_of_le (hs o t ht) (by omega))]
    obtain ⟨ih1, ih2⟩ := ihl (by omega) n _ hlen hso
    rw [happ]
    refine ⟨fun h => ?_, fun h h0 => ?_⟩
    · refine lift hko (by omega) hs ?_
      rw [ih1 (h.imp id fun h => by omega), cont_step (expo_shrinks n) o l r hr']
    · subst h0
      rcases Nat.eq_zero_or_pos o.lvl with hz | hz
      · have := cont_step (expo_shrinks n) o l r hr'
        rw [hz] at this
        rw [ih2 h hz, this]
      · obtain ⟨t, t', rfl, hp⟩ := hl.plain h hz
        rw [List.cons_append, expression_plain _ hp, ← List.cons_append]
        refine lift hko (by omega) hs ?_
        rw [ih1 (Or.inr hz), cont_step (expo_shrinks n) o l r hr']

/-- Every text of `e` is read as `e`. -/
theorem parse_text {e : Ex A} {ts : List (Tok A)} (h : Text true 0 e ts) (rest : List (Tok A)) (hs : Stop 0 rest) :
    parse (ts ++ rest) = some (e, rest) := by
  rw [parse, (read h (by omega) _ rest le_rfl (fun o t ht => absurd (hs o t ht) (by omega))).2 rfl rfl, cont_stop _ _ hs]

theorem printCode_text (e : Ex A) : ∀ s k, Text s k e (printCode s k e) := by
  induction e with
  | atom a => intro s k; exact .atom _ _ _
  | fn f e ih => intro s k; exact .fn _ _ _ (ih _ _)
  | un o e ih =>
    intro s k
    unfold printCode
    split_ifs with h1 h2
    · obtain ⟨rfl, rfl⟩ := h1
      exact .un _ (ih _ _)
    · obtain ⟨rfl, rfl⟩ := h2
      exact .minus _ (ih _ _)
    · exact .paren _ _ (.un _ (ih _ _))
  | bin o l r ihl ihr =>
    intro s k
    unfold printCode
    split_ifs with h1
    · exact .bin _ _ _ h1 (ihl _ _) (ihr _ _)
    · exact .paren _ _ (.bin _ _ _ (Nat.zero_le _) (ihl _ _) (ihr _ _))

theorem printFull_text (e : Ex A) : ∀ s k, Text s k e (printFull e) := by
  induction e with
  | atom a => intro s k; exact .atom _ _ _
  | fn f e ih => intro s k; exact .fn _ _ _ (ih _ _)
  | un o e ih => intro s k; exact .paren _ _ (.un _ (ih _ _))
  | bin o l r ihl ihr => intro s k; exact .paren _ _ (.bin _ _ _ (Nat.zero_le _) (ihl _ _) (ihr _ _))

theorem print_text (e : Ex A) : ∀ s k p, Safe s k p e = true → Text s k e (print p e) := by
  induction e with
  | atom a => intro s k p _; exact .atom _ _ _
  | fn f e ih => intro s k p h; exact .fn _ _ _ (ih _ _ _ h)
  | un o e ih =>
    intro s k p h
    unfold print
    unfold Safe at h
    split_ifs at h ⊢ with h1 h2
    · simp only [Bool.and_eq_true, decide_eq_true_eq] at h
      obtain ⟨rfl, h⟩ := h
      rw [h2]
      exact .un _ (ih _ _ _ h)
    · simp only [Bool.and_eq_true, decide_eq_true_eq] at h
      obtain ⟨rfl, h⟩ := h
      rw [Bool.not_eq_true] at h2
      rw [h2]
      exact .minus _ (ih _ _ _ h)
    · exact .paren _ _ (.un _ (ih _ _ _ h))
  | bin o l r ihl ihr =>
    intro s k p h
    unfold print
    unfold Safe at h
    split_ifs at h ⊢ with h1
    · simp only [Bool.and_eq_true, decide_eq_true_eq] at h
      exact .bin _ _ _ h.1.1 (ihl _ _ _ h.1.2) (ihr _ _ _ h.2)
    · simp only [Bool.and_eq_true] at h
      exact .paren _ _ (.bin _ _ _ (Nat.zero_le _) (ihl _ _ _ h.1) (ihr _ _ _ h.2))

/-! ### Only the texts are read -/

/-- What `p` reads is a text of level at least `k`. -/
def Sound (k : ℕ) (p : P A) : Prop := ∀ ts e rest, p ts = some (e, rest) → ∃ pre, ts = pre ++ rest ∧ Text false k e pre

theorem chain_sound {k : ℕ} {p : P A} (hp : Sound (k + 1) p) {ops : BOp → Bool} (ho : ∀ o, ops o = true → o.lvl = k)
    (hup : ∀ (e : Ex A) ts, Text false (k + 1) e ts → Text false k e ts) : Sound k (chain p ops) := by
  have hl : ∀ m x pre ts e rest, Text false k x pre → loop p ops m x ts = some (e, rest) → ∃ pre', pre ++ ts = pre' ++ rest ∧ Text false k e pre' := by
    intro m
    induction m with
    | zero =>
      intro x pre ts e rest hx h
      simp only [loop, Option.some.injEq, Prod.mk.injEq] at h
      obtain ⟨rfl, rfl⟩ := h
      exact ⟨pre, rfl, hx⟩
    | succ m ih =>
      intro x pre ts e rest hx h
      unfold loop at h
      split at h
      · obtain rfl := Nat.succ.inj ‹m + 1 = Nat.succ _›
        split at h
        · next hop =>
          split at h
          · next y ts' ey =>
            obtain ⟨pre2, rfl, h2⟩ := hp _ _ _ ey
            obtain rfl := ho _ hop
            obtain ⟨pre', e', h'⟩ := ih _ _ _ _ _ (.bin _ _ _ le_rfl hx h2) h
            exact ⟨pre', by rw [← e']; simp, h'⟩
          · cases h
        · simp only [Option.some.injEq, Prod.mk.injEq] at h
          obtain ⟨rfl, rfl⟩ := h
          exact ⟨pre, rfl, hx⟩
      · simp only [Option.some.injEq, Prod.mk.injEq] at h
        obtain ⟨rfl, rfl⟩ := h
        exact ⟨pre, rfl, hx⟩
  intro ts e rest h
  unfold chain at h
  split at h
  · next x ts' ex =>
    obtain ⟨pre, rfl, hx⟩ := hp _ _ _ ex
    exact hl _ _ _ _ _ _ (hup _ _ hx) h
  · cases h

theorem Text.mono {s : Bool} {k j : ℕ} {e : Ex A} {ts : List (Tok A)} (h : Text s k e ts) (hj : j ≤ k) : Text s j e ts := by
  induction h generalizing j with
  | atom s k a => exact .atom _ _ _
  | fn s k f h _ => exact .fn _ _ _ h
  | paren s k h _ => exact .paren _ _ h
  | un o h _ =>
    obtain rfl := Nat.le_zero.1 hj
    exact .un _ h
  | minus k h _ => exact .minus _ h
  | bin s k o hk h1 h2 _ _ => exact .bin _ _ _ (by omega) h1 h2

theorem Text.ne_nil {s : Bool} {k : ℕ} {e : Ex A} {ts : List (Tok A)} (h : Text s k e ts) : ts ≠ [] := by
  cases h <;> simp [Parse.paren]

theorem Text.start {s : Bool} {k : ℕ} {e : Ex A} {ts : List (Tok A)} (h : Text s k e ts) {t : Tok A} {ts' : List (Tok A)} (hts : ts = t :: ts')
    (ht : t.Plain) : Text true k e ts := by
  induction h generalizing ts' with
  | atom s k a => exact .atom _ _ _
  | fn s k f h _ => exact .fn _ _ _ h
  | paren s k h _ => exact .paren _ _ h
  | un o h _ => exact .un _ h
  | minus k h _ => cases hts; exact absurd rfl ht.1
  | @bin s k o l r ts1 ts2 hk h1 h2 ih _ =>
    cases ts1 with
    | nil => exact absurd rfl h1.ne_nil
    | cons a ts1 =>
      cases hts
      exact .bin _ _ _ hk (ih rfl) h2

theorem lev_sound {E : P A} (hE : Sound 4 E) : ∀ k, k ≤ 4 → Sound k (lev E k) := by
  have step : ∀ k, k ≤ 3 → Sound (k + 1) (lev E (k + 1)) → Sound k (lev E k) := by
    intro k hk h
    rw [lev_eq E hk]
    exact chain_sound h (fun o ho => by simpa using ho) (fun e ts ht => ht.mono (by omega))
  have h4 : Sound 4 (lev E 4) := hE
  have h3 := step 3 (by omega) h4
  have h2 := step 2 (by omega) h3
  have h1 := step 1 (by omega) h2
  have h0 := step 0 (by omega) h1
  intro k hk
  obtain rfl | rfl | rfl | rfl | rfl : k = 0 ∨ k = 1 ∨ k = 2 ∨ k = 3 ∨ k = 4 := by omega
  all_goals assumption

theorem sum_sound {E : P A} (hE : Sound 4 E) (m : ℕ) (x : Ex A) (pre ts : List (Tok A)) (e : Ex A) (rest : List (Tok A))
    (hx : Text true 0 x pre) (h : loop (comparison E) sumOps m x ts = some (e, rest)) : ∃ pre', pre ++ ts = pre' ++ rest ∧ Text true 0 e pre' := by
  induction m generalizing x pre ts with
  | zero =>
    simp only [loop, Option.some.injEq, Prod.mk.injEq] at h
    obtain ⟨rfl, rfl⟩ := h
    exact ⟨pre, rfl, hx⟩
  | succ m ih =>
    unfold loop at h
    split at h
    · obtain rfl := Nat.succ.inj ‹m + 1 = Nat.succ _›
      split at h
      · next o _ _ hop =>
        split at h
        · next y ts' ey =>
          rw [← lev1] at ey
          obtain ⟨pre2, rfl, h2⟩ := lev_sound hE 1 (by omega) _ _ _ ey
          have h0 : ∀ o : BOp, sumOps o = true → o.lvl = 0 := by intro o; cases o <;> simp [sumOps, BOp.lvl]
          have h0 := h0 _ hop
          obtain ⟨pre', e', h'⟩ := ih _ _ _ (.bin (ts := pre) (ts' := pre2) true 0 _ (Nat.zero_le _) (by rw [h0]; exact hx) (by rw [h0]; exact h2)) h
          exact ⟨pre', by rw [← e']; simp, h'⟩
        · cases h
      · simp only [Option.some.injEq, Prod.mk.injEq] at h
        obtain ⟨rfl, rfl⟩ := h
        exact ⟨pre, rfl, hx⟩
    · simp only [Option.some.injEq, Prod.mk.injEq] at h
      obtain ⟨rfl, rfl⟩ := h
      exact ⟨pre, rfl, hx⟩

theorem expression_sound {E : P A} (hE : Sound 4 E) (ts : List (Tok A)) (e : Ex A) (rest : List (Tok A))
    (h : expression E ts = some (e, rest)) : ∃ pre, ts = pre ++ rest ∧ Text true 0 e pre := by
  unfold expression at h
  split at h
  · next x ts' ex =>
    obtain ⟨pre, rfl, hx⟩ : ∃ pre, ts = pre ++ ts' ∧ Text true 0 x pre := by
      unfold expressionHead at ex
      have hu : ∀ {o : UOp} {ts : List (Tok A)}, unary o (term E) ts = some (x, ts') →
          ∃ pre, (o.tok :: ts : List (Tok A)) = pre ++ ts' ∧ Text true 0 x pre := by
        intro o ts h
        obtain ⟨y, hy, rfl⟩ := unary_some h
        rw [← lev2] at hy
        obtain ⟨pre, rfl, hz⟩ := lev_sound hE 2 (by omega) _ _ _ hy
        exact ⟨_, rfl, .un o hz⟩
      split at ex
      · exact hu ex
      · exact hu ex
      · exact hu ex
      · next n1 n2 n3 =>
        rw [← lev1] at ex
        obtain ⟨pre, rfl, h⟩ := lev_sound hE 1 (by omega) _ _ _ ex
        refine ⟨pre, rfl, ?_⟩
        cases pre with
        | nil => exact absurd rfl h.ne_nil
        | cons t pre =>
          refine (h.start rfl ⟨?_, ?_, ?_⟩).mono (by omega)
          · rintro rfl; exact n1 _ rfl
          · rintro rfl; exact n2 _ rfl
          · rintro rfl; exact n3 _ rfl
    exact sum_sound hE _ _ _ _ _ _ hx h
  · cases h

theorem expo_sound (n : ℕ) : Sound 4 (expo n : P A) := by
  induction n with
  | zero => intro ts x r h; simp [expo] at h
  | succ n ih =>
    intro ts x r h
    unfold expo at h
    split at h
    · obtain rfl := Nat.succ.inj ‹n + 1 = Nat.succ _›
      obtain ⟨y, hy, rfl⟩ := unary_some h
      obtain ⟨pre, rfl, hz⟩ := ih _ _ _ hy
      exact ⟨_, rfl, .minus _ hz⟩
    · simp only [Option.some.injEq, Prod.mk.injEq] at h
      obtain ⟨rfl, rfl⟩ := h
      exact ⟨[_], rfl, .atom _ _ _⟩
    · obtain rfl := Nat.succ.inj ‹n + 1 = Nat.succ _›
      split at h
      · next e =>
        simp only [Option.some.injEq, Prod.mk.injEq] at h
        obtain ⟨rfl, rfl⟩ := h
        obtain ⟨pre, rfl, h⟩ := expression_sound ih _ _ _ e
        exact ⟨Parse.paren pre, by simp [Parse.paren], .paren _ _ h⟩
      · cases h
    · obtain rfl := Nat.succ.inj ‹n + 1 = Nat.succ _›
      split at h
      · next e =>
        simp only [Option.some.injEq, Prod.mk.injEq] at h
        obtain ⟨rfl, rfl⟩ := h
        obtain ⟨pre, rfl, h⟩ := expression_sound ih _ _ _ e
        exact ⟨_ :: Parse.paren pre, by simp [Parse.paren], .fn _ _ _ h⟩
      · cases h
    · cases h

/-- What is read is a text of the expression. -/
theorem parse_sound {ts : List (Tok A)} {e : Ex A} {rest : List (Tok A)} (h : parse ts = some (e, rest)) :
    ∃ pre, ts = pre ++ rest ∧ Text true 0 e pre := expression_sound (expo_sound _) _ _ _ h

/-! ### The texts by the rules that are texts for the code -/

/-- The number of tokens that are not parentheses. -/
def weight : List (Tok A) → ℕ
  | [] => 0
  | .lpar :: ts => weight ts
  | .rpar :: ts => weight ts
  | _ :: ts => weight ts + 1

def Ex.weight : Ex A → ℕ
  | .atom _ => 1
  | .un _ e => e.weight + 1
  | .fn _ e => e.weight + 1
  | .bin _ l r => l.weight + (r.weight + 1)

/-- The parentheses still open. -/
def depth : List (Tok A) → ℤ
  | [] => 0
  | .lpar :: ts => depth ts + 1
  | .rpar :: ts => depth ts - 1
  | _ :: ts => depth ts

theorem weight_append (a b : List (Tok A)) : weight (a ++ b) = weight a + weight b := by
  induction a with
  | nil => simp [weight]
  | cons t a ih => cases t <;> simp [weight, ih] <;> omega

theorem depth_append (a b : List (Tok A)) : depth (a ++ b) = depth a + depth b := by
  induction a with
  | nil => simp [depth]
  | cons t a ih => cases t <;> simp [depth, ih] <;> omega

theorem weight_paren (ts : List (Tok A)) : weight (paren ts) = weight ts := by
  simp [paren, weight, weight_append]

/-- No prefix closes more than it opens, and in the end nothing is open. -/
def Balanced (ts : List (Tok A)) : Prop := depth ts = 0 ∧ ∀ a b, ts = a ++ b → 0 ≤ depth a

theorem Balanced.cons {t : Tok A} (ht : ∀ ts : List (Tok A), depth (t :: ts) = depth ts) {ts : List (Tok A)} (h : Balanced ts) :
    Balanced (t :: ts) := by
  refine ⟨by rw [ht, h.1], fun a b e => ?_⟩
  cases a with
  | nil => exact le_rfl
  | cons t' a =>
    cases e
    rw [ht]
    exact h.2 _ _ rfl

theorem Balanced.append {ts ts' : List (Tok A)} (h : Balanced ts) (h' : Balanced ts') : Balanced (ts ++ ts') := by
  refine ⟨by rw [depth_append, h.1, h'.1, add_zero], fun a b e => ?_⟩
  rcases List.append_eq_append_iff.1 e with ⟨c, rfl, e2⟩ | ⟨c, rfl, e2⟩
  · rw [depth_append, h.1, zero_add]
    exact h'.2 _ _ e2
  · exact h.2 _ _ rfl

theorem Balanced.paren {ts : List (Tok A)} (h : Balanced ts) : Balanced (paren ts) := by
  refine ⟨by simp [Parse.paren, depth, depth_append, h.1], fun a b e => ?_⟩
  cases a with
  | nil => exact le_rfl
  | cons t a =>
    injection e with e1 e2
    subst e1
    rcases List.append_eq_append_iff.1 e2 with ⟨c, rfl, e3⟩ | ⟨c, rfl, e3⟩
    · rcases c with _ | ⟨t, c⟩
      · simp [depth, h.1]
      · rw [List.cons_append, List.cons_eq_cons] at e3
        obtain ⟨rfl, e3⟩ := e3
        obtain ⟨rfl, rfl⟩ := List.append_eq_nil_iff.1 e3.symm
        simp [depth, depth_append, h.1]
    · have := h.2 _ _ rfl
      simp only [depth]
      omega

theorem Text.balanced {s : Bool} {k : ℕ} {e : Ex A} {ts : List (Tok A)} (h : Text s k e ts) : Balanced ts := by
  have nil : Balanced ([] : List (Tok A)) := ⟨rfl, fun a b e => by rw [(List.append_eq_nil_iff.1 e.symm).1]; exact le_rfl⟩
  induction h with
  | atom s k a => exact nil.cons fun _ => rfl
  | fn s k f _ ih => exact ih.paren.cons fun _ => rfl
  | paren s k _ ih => exact ih.paren
  | un o _ ih => exact ih.cons fun _ => by cases o <;> rfl
  | minus k _ ih => exact ih.cons fun _ => rfl
  | bin s k o _ _ _ ih ih' => exact ih.append (ih'.cons fun _ => rfl)

theorem Text.weight {s : Bool} {k : ℕ} {e : Ex A} {ts : List (Tok A)} (h : Text s k e ts) : weight ts = e.weight := by
  induction h with
  | atom s k a => rfl
  | fn s k f _ ih => simp [Parse.weight, weight_paren, Ex.weight, ih]
  | paren s k _ ih => rw [weight_paren, ih]
  | un o _ ih => cases o <;> simp [Parse.weight, UOp.tok, Ex.weight, ih]
  | minus k _ ih => simp [Parse.weight, Ex.weight, ih]
  | bin s k o _ _ _ ih ih' => simp [Parse.weight, weight_append, Ex.weight, ih, ih']

theorem print_weight (p : ℕ) (e : Ex A) : weight (print p e) = e.weight := by
  induction e generalizing p with
  | atom a => rfl
  | fn f e ih => simp [weight, print, weight_paren, Ex.weight, ih]
  | un o e ih =>
    unfold print
    split_ifs <;> cases o <;> simp [weight, weight_paren, UOp.tok, Ex.weight, ih]
  | bin o l r ihl ihr =>
    unfold print
    split_ifs <;> simp [weight, weight_paren, weight_append, Ex.weight, ihl, ihr]

theorem print_ne (p : ℕ) (e : Ex A) : print p e ≠ [] := by
  cases e <;> unfold print <;> (try split_ifs) <;> simp [paren]

theorem print_balanced (p : ℕ) (e : Ex A) : Balanced (print p e) := by
  have nil : Balanced ([] : List (Tok A)) := ⟨rfl, fun a b e => by rw [(List.append_eq_nil_iff.1 e.symm).1]; exact le_rfl⟩
  induction e generalizing p with
  | atom a => exact nil.cons fun _ => rfl
  | fn f e ih => exact (ih _).paren.cons fun _ => rfl
  | un o e ih =>
    have := (ih 4).cons (t := o.tok) fun _ => by cases o <;> rfl
    unfold print
    split_ifs
    · exact this
    · exact this.paren
  | bin o l r ihl ihr =>
    have := (ihl o.precL).append ((ihr o.precR).cons (t := .bop o) fun _ => rfl)
    unfold print
    split_ifs
    · exact this
    · exact this.paren

/-- A text in parentheses is not one of an operator applied to two. -/
theorem paren_ne {a b ts : List (Tok A)} (ha : Balanced a) (hne : a ≠ []) (t : Tok A) (ht : Balanced ts) : a ++ t :: b ≠ paren ts := by
  intro e
  cases a with
  | nil => exact hne rfl
  | cons x a =>
    simp only [paren, List.cons_append] at e
    injection e with e1 e2
    subst e1
    have h0 := ha.1
    simp only [depth] at h0
    rcases List.append_eq_append_iff.1 e2 with ⟨c, rfl, e3⟩ | ⟨c, rfl, e3⟩
    · have := ht.2 _ _ rfl
      omega
    · rw [depth_append, ht.1] at h0
      rcases c with _ | ⟨y, c⟩
      · simp [depth] at h0
      · rw [List.cons_append, List.cons_eq_cons] at e3
        obtain ⟨rfl, e3⟩ := e3
        have := congrArg List.length e3
        simp at this

theorem split_eq {a b a' b' : List (Tok A)} {o : BOp} (hw : weight a = weight a') (h : a ++ .bop o :: b = a' ++ .bop o :: b') :
    a = a' ∧ b = b' := by
  rcases List.append_eq_append_iff.1 h with ⟨c, rfl, e⟩ | ⟨c, rfl, e⟩
  · rcases c with _ | ⟨x, c⟩
    · rw [List.nil_append, List.cons_eq_cons] at e
      exact ⟨by simp, e.2⟩
    · rw [List.cons_append, List.cons_eq_cons] at e
      obtain ⟨rfl, e⟩ := e
      simp [weight_append, weight] at hw
  · rcases c with _ | ⟨x, c⟩
    · rw [List.nil_append, List.cons_eq_cons] at e
      exact ⟨by simp, e.2.symm⟩
    · rw [List.cons_append, List.cons_eq_cons] at e
      obtain ⟨rfl, e⟩ := e
      simp [weight_append, weight] at hw

theorem paren_inj {a b : List (Tok A)} (h : paren a = paren b) : a = b := by
  simpa [paren] using h

theorem text_bin {s : Bool} {k : ℕ} {o : BOp} {l r : Ex A} {p q : ℕ} (h : Text s k (.bin o l r) (print p l ++ .bop o :: print q r)) :
    k ≤ o.lvl ∧ Text s o.lvl l (print p l) ∧ Text false (o.lvl + 1) r (print q r) := by
  generalize hts : print p l ++ .bop o :: print q r = ts at h
  cases h with
  | paren _ _ h => exact absurd hts (paren_ne (print_balanced _ _) (print_ne _ _) _ h.balanced)
  | bin _ _ _ hk h1 h2 =>
    obtain ⟨rfl, rfl⟩ := split_eq (by rw [print_weight, h1.weight]) hts
    exact ⟨hk, h1, h2⟩

theorem text_un {s : Bool} {k : ℕ} {o : UOp} {e : Ex A} {p : ℕ} (h : Text s k (.un o e) (o.tok :: print p e)) :
    s = true ∧ k = 0 ∧ Text false 2 e (print p e) ∨ s = false ∧ o = .neg ∧ Text false 4 e (print p e) := by
  generalize hts : (o.tok :: print p e : List (Tok A)) = ts at h
  cases h with
  | paren _ _ h => cases o <;> simp [paren, UOp.tok] at hts
  | un _ h =>
    injection hts with _ h'
    rw [h']
    exact Or.inl ⟨rfl, rfl, h⟩
  | minus _ h =>
    injection hts with _ h'
    rw [h']
    exact Or.inr ⟨rfl, rfl, h⟩

theorem text_paren {s : Bool} {k : ℕ} {e : Ex A} {ts : List (Tok A)} (hb : Balanced ts) (h : Text s k e (paren ts)) : Text true 0 e ts := by
  generalize hts : paren ts = ts' at h
  cases h with
  | atom => simp [paren] at hts
  | fn => simp [paren] at hts
  | paren _ _ h => rw [paren_inj hts]; exact h
  | un o _ => cases o <;> simp [paren, UOp.tok] at hts
  | minus => simp [paren] at hts
  | bin _ _ _ _ h1 _ => exact absurd hts.symm (paren_ne h1.balanced h1.ne_nil _ hb)

theorem text_print (e : Ex A) : ∀ s k p, Text s k e (print p e) → Safe s k p e = true := by
  induction e with
  | atom a => intro s k p _; rfl
  | fn f e ih =>
    intro s k p h
    unfold print at h
    generalize hts : (Tok.fn f :: paren (print 0 e)) = ts at h
    cases h with
    | fn _ _ _ h =>
      injection hts with _ h'
      rw [← paren_inj h'] at h
      exact ih _ _ _ h
    | paren => simp [paren] at hts
  | un o e ih =>
    intro s k p h
    unfold print at h
    unfold Safe
    split_ifs at h ⊢ with h1 h2
    · rcases text_un h with ⟨_, rfl, h'⟩ | ⟨h', _⟩
      · simp [ih _ _ _ h']
      · rw [h2] at h'; cases h'
    · rcases text_un h with ⟨h', _⟩ | ⟨_, rfl, h'⟩
      · exact absurd h' h2
      · simp [ih _ _ _ h']
    · have hb : Balanced (o.tok :: print 4 e) := (print_balanced 4 e).cons fun _ => by cases o <;> rfl
      rcases text_un (text_paren hb h) with ⟨_, _, h⟩ | ⟨h, _⟩
      · exact ih _ _ _ h
      · cases h
  | bin o l r ihl ihr =>
    intro s k p h
    unfold print at h
    unfold Safe
    split_ifs at h ⊢ with h1
    · obtain ⟨hk, h2, h3⟩ := text_bin h
      simp [hk, ihl _ _ _ h2, ihr _ _ _ h3]
    · obtain ⟨-, h2, h3⟩ := text_bin (text_paren ((print_balanced _ _).append ((print_balanced _ _).cons fun _ => rfl)) h)
      simp [ihl _ _ _ h2, ihr _ _ _ h3]

end MQT.QASM.Parse
