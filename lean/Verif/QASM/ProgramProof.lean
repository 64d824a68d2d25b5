/-
Lemmas on the parser of programs (Verif/QASM/Program.lean): the texts of a program are read as it, and nothing else is read.
-/
import Verif.QASM.Program

set_option autoImplicit false

namespace MQT.QASM.Program

open MQT.QASM.Parse (BOp Fn Ex Cmp)

theorem expect_iff {t : Tk} {ts r : List Tk} : expect t ts = some r ↔ ts = t :: r := by
  unfold expect
  split
  · simp only [Option.ite_none_right_eq_some, Option.some.injEq, List.cons.injEq]
  · simp

@[simp] theorem expect_cons (t : Tk) (r : List Tk) : expect t (t :: r) = some r := expect_iff.2 rfl

theorem ident_iff {ts r : List Tk} {s : String} : ident ts = some (s, r) ↔ ts = .ident s :: r := by
  unfold ident
  split
  · simp
  · next h => simp only [reduceCtorEq, false_iff]; rintro rfl; exact h _ _ rfl

/-! ### Expressions -/

/-- The tokens an expression starts with. -/
def starts : Parse.Tok Atom → Bool
  | .atom _ => true
  | .bop .sub => true
  | .bang => true
  | .tilde => true
  | .fn _ => true
  | .lpar => true
  | _ => false

theorem text_starts {s : Bool} {k : ℕ} {e : E} {ts : List (Parse.Tok Atom)} (h : Parse.Text s k e ts) :
    ∃ t r, ts = t :: r ∧ starts t = true := by
  induction h with
  | atom s k a => exact ⟨_, _, rfl, rfl⟩
  | fn s k f _ _ => exact ⟨_, _, rfl, rfl⟩
  | paren s k _ _ => exact ⟨_, _, rfl, rfl⟩
  | un o _ _ => exact ⟨_, _, rfl, by cases o <;> rfl⟩
  | minus k _ _ => exact ⟨_, _, rfl, rfl⟩
  | bin s k o _ _ _ ih _ =>
    obtain ⟨t, r, rfl, h⟩ := ih
    exact ⟨t, _, rfl, h⟩

theorem ExprText.starts {e : E} {ts : List Tk} (h : ExprText e ts) : ∃ t r, ts = t :: r ∧ starts t.toP = true := by
  obtain ⟨t, r, h1, h2⟩ := text_starts h
  cases ts with
  | nil => cases h1
  | cons a ts =>
    rw [List.map_cons, List.cons.injEq] at h1
    exact ⟨a, ts, rfl, by rw [h1.1]; exact h2⟩

theorem ExprText.head {e : E} {ts : List Tk} (h : ExprText e ts) (rest : List Tk) {t : Tk} (ht : Program.starts t.toP = false) :
    (ts ++ rest).head? ≠ some t := by
  obtain ⟨a, r, rfl, h'⟩ := h.starts
  simp only [List.cons_append, List.head?_cons, ne_eq, Option.some.injEq]
  rintro rfl
  rw [ht] at h'
  cases h'

theorem expr_text {e : E} {ts : List Tk} (h : ExprText e ts) (rest : List Tk) (hs : ∀ o, rest.head? ≠ some (.bop o)) :
    expr (ts ++ rest) = some (e, rest) := by
  have : Parse.Stop 0 (rest.map Tk.toP) := by
    intro o t ht
    cases rest with
    | nil => cases ht
    | cons a r =>
      rw [List.map_cons, List.cons.injEq] at ht
      cases a with
      | bop o' => exact absurd rfl (hs o')
      | _ => simp [Tk.toP] at ht
  have key := Parse.parse_text h _ this
  rw [← List.map_append] at key
  rw [expr, key]
  simp

theorem expr_sound {e : E} {ts r : List Tk} (h : expr ts = some (e, r)) : ∃ pre, ts = pre ++ r ∧ ExprText e pre := by
  unfold expr at h
  split at h
  · next e' r' h' =>
    simp only [Option.some.injEq, Prod.mk.injEq] at h
    obtain ⟨rfl, rfl⟩ := h
    obtain ⟨pre, h1, h2⟩ := Parse.parse_sound h'
    refine ⟨ts.take (ts.length - r'.length), (List.take_append_drop _ _).symm, ?_⟩
    unfold ExprText
    have hl : ts.length - r'.length = pre.length := by
      have := congrArg List.length h1
      simp only [List.length_map, List.length_append] at this
      omega
    rw [hl, List.map_take, h1, List.take_left]
    exact h2
  · cases h

/-! ### Lists -/

theorem sepBy_text {α : Type} {loose : Bool} {p : α → List Tk → Prop} {f : P α} {close : Tk}
    (hf : ∀ x ts rest, p x ts → (rest.head? = some .comma ∨ rest.head? = some close) → f (ts ++ rest) = some (x, rest))
    (hh : ∀ x ts rest, p x ts → (ts ++ rest).head? ≠ some close) (hc : close ≠ .comma) {l : List α} {ts : List Tk} (h : Sep loose p l ts) :
    ∀ n rest, ts.length < n → sepBy f close n (ts ++ close :: rest) = some (l, close :: rest) := by
  induction h with
  | one hx =>
    intro n rest hn
    obtain ⟨n, rfl⟩ : ∃ k, n = k + 1 := ⟨n - 1, by omega⟩
    rw [sepBy, if_neg (hh _ _ _ hx), hf _ _ _ hx (.inr rfl)]
    simp
  | last _ hx =>
    intro n rest hn
    simp only [List.length_append, List.length_cons, List.length_nil] at hn
    obtain ⟨n, rfl⟩ : ∃ k, n = k + 2 := ⟨n - 2, by omega⟩
    rw [List.append_assoc, List.cons_append, List.nil_append, sepBy, if_neg (hh _ _ _ hx), hf _ _ _ hx (.inl rfl)]
    simp [Ne.symm hc, sepBy]
  | cons hx _ ih =>
    intro n rest hn
    simp only [List.length_append, List.length_cons] at hn
    obtain ⟨n, rfl⟩ : ∃ k, n = k + 1 := ⟨n - 1, by omega⟩
    rw [List.append_assoc, List.cons_append, sepBy, if_neg (hh _ _ _ hx), hf _ _ _ hx (.inl rfl)]
    simp [Ne.symm hc, ih n rest (by omega)]

theorem list_text {α : Type} {loose : Bool} {p : α → List Tk → Prop} {f : P α} {close : Tk}
    (hf : ∀ x ts rest, p x ts → (rest.head? = some .comma ∨ rest.head? = some close) → f (ts ++ rest) = some (x, rest))
    (hh : ∀ x ts rest, p x ts → (ts ++ rest).head? ≠ some close) (hc : close ≠ .comma) {l : List α} {ts : List Tk} (h : Sep loose p l ts)
    (rest : List Tk) : list f close (ts ++ close :: rest) = some (l, rest) := by
  rw [list, sepBy_text hf hh hc h _ rest (by simp; omega)]
  simp

theorem list_empty {α : Type} (f : P α) (close : Tk) (rest : List Tk) : list f close (close :: rest) = some ([], rest) := by
  simp [list, sepBy]

theorem sepBy_sound {α : Type} {p : α → List Tk → Prop} {f : P α} {close : Tk}
    (hf : ∀ x ts r, f ts = some (x, r) → ∃ pre, ts = pre ++ r ∧ p x pre) : ∀ n l ts r, sepBy f close n ts = some (l, r) →
    ∃ pre, ts = pre ++ r ∧ ((l = [] ∧ pre = []) ∨ Sep true p l pre) := by
  intro n
  induction n with
  | zero => intro l ts r h; simp [sepBy] at h
  | succ n ih =>
    intro l ts r h
    rw [sepBy] at h
    by_cases hc : ts.head? = some close
    · rw [if_pos hc] at h
      simp only [Option.some.injEq, Prod.mk.injEq] at h
      exact ⟨[], by simp [h.2], .inl ⟨h.1.symm, rfl⟩⟩
    · rw [if_neg hc] at h
      simp only [Option.bind_eq_some_iff, Prod.exists] at h
      obtain ⟨x, r1, h1, h2⟩ := h
      obtain ⟨pre, rfl, hx⟩ := hf _ _ _ h1
      by_cases hd : r1.head? = some close
      · rw [if_pos hd] at h2
        simp only [Option.some.injEq, Prod.mk.injEq] at h2
        obtain ⟨rfl, rfl⟩ := h2
        exact ⟨pre, rfl, .inr (.one hx)⟩
      · rw [if_neg hd] at h2
        simp only [Option.bind_eq_some_iff, Prod.exists, expect_iff, Option.some.injEq, Prod.mk.injEq] at h2
        obtain ⟨r2, rfl, l', r3, h3, rfl, rfl⟩ := h2
        obtain ⟨pre', rfl, h4⟩ := ih _ _ _ h3
        rcases h4 with ⟨rfl, rfl⟩ | h4
        · exact ⟨pre ++ [.comma], by simp, .inr (.last rfl hx)⟩
        · exact ⟨pre ++ .comma :: pre', by simp, .inr (.cons hx h4)⟩

theorem list_sound {α : Type} {p : α → List Tk → Prop} {f : P α} {close : Tk}
    (hf : ∀ x ts r, f ts = some (x, r) → ∃ pre, ts = pre ++ r ∧ p x pre) {l : List α} {ts r : List Tk}
    (h : list f close ts = some (l, r)) : ∃ pre, ts = pre ++ close :: r ∧ ((l = [] ∧ pre = []) ∨ Sep true p l pre) := by
  simp only [list, Option.bind_eq_some_iff, Prod.exists, expect_iff, Option.some.injEq, Prod.mk.injEq] at h
  obtain ⟨l', r', h1, r'', rfl, rfl, rfl⟩ := h
  exact sepBy_sound hf _ _ _ _ h1

/-! ### Operands -/

theorem expr_item {close : Tk} (hc : ∀ o, close ≠ .bop o) (x : E) (ts rest : List Tk) (h : ExprText x ts)
    (hr : rest.head? = some .comma ∨ rest.head? = some close) : expr (ts ++ rest) = some (x, rest) :=
  expr_text h _ fun o ho => by
    rcases hr with hr | hr <;> rw [hr] at ho
    · cases ho
    · exact hc o (Option.some.inj ho)

theorem exprs_text {loose : Bool} {close : Tk} (hc : ∀ o, close ≠ .bop o) (hs : starts close.toP = false) (hc' : close ≠ .comma) {l : List E} {ts : List Tk}
    (h : Sep loose ExprText l ts) (rest : List Tk) : list expr close (ts ++ close :: rest) = some (l, rest) :=
  list_text (expr_item hc) (fun _ _ rest h => h.head rest hs) hc' h rest

theorem indices_text {loose : Bool} {ix : List (List E)} {ts : List Tk} (h : Cat (IndexText loose) ix ts) :
    ∀ n rest, ts.length < n → rest.head? ≠ some .lbr → indices n (ts ++ rest) = some (ix, rest) := by
  induction h with
  | nil =>
    intro n rest hn hr
    obtain ⟨n, rfl⟩ : ∃ k, n = k + 1 := ⟨n - 1, by omega⟩
    rw [List.nil_append, indices]
    rintro r rfl
    simp at hr
  | cons hx _ ih =>
    intro n rest hn hr
    obtain ⟨n, rfl⟩ : ∃ k, n = k + 1 := ⟨n - 1, by omega⟩
    simp only [List.length_append] at hn
    cases hx with
    | mk h =>
      simp only [List.length_cons, List.length_append, List.length_nil] at hn
      rw [List.append_assoc, List.cons_append, List.append_assoc, List.cons_append, List.nil_append, indices]
      rw [exprs_text (by simp) rfl (by simp) h]
      simp [ih n rest (by omega) hr]
    | empty _ =>
      simp only [List.length_cons, List.length_nil] at hn
      rw [List.append_assoc, List.cons_append, List.cons_append, List.nil_append, indices]
      rw [list_empty]
      simp [ih n rest (by omega) hr]

theorem ref_text {loose : Bool} {r : Ref} {ts : List Tk} (h : RefText loose r ts) (rest : List Tk) (hr : rest.head? ≠ some .lbr) :
    ref (ts ++ rest) = some (r, rest) := by
  cases h with
  | mk s h =>
    rw [List.cons_append, ref, ident_iff.2 rfl]
    simp only [Option.bind_some]
    rw [indices_text h _ rest (by simp; omega) hr]
    rfl

theorem operand_text {loose : Bool} {q : Operand} {ts : List Tk} (h : OperandText loose q ts) (rest : List Tk) (hr : rest.head? ≠ some .lbr) :
    operand (ts ++ rest) = some (q, rest) := by
  cases h with
  | hw v => rfl
  | ref h =>
    have := ref_text h rest hr
    cases h with
    | mk s h =>
      rw [List.cons_append] at this ⊢
      rw [operand, this]
      · rfl
      · intro v r; simp

theorem operand_head {loose : Bool} {q : Operand} {ts : List Tk} (h : OperandText loose q ts) :
    ∃ t r, ts = t :: r ∧ ((∃ s, t = .ident s) ∨ ∃ v, t = .hw v) := by
  cases h with
  | hw v => exact ⟨_, _, rfl, .inr ⟨v, rfl⟩⟩
  | ref h => cases h with | mk s h => exact ⟨_, _, rfl, .inl ⟨s, rfl⟩⟩

theorem operands_head {loose : Bool} {qs : List Operand} {ts : List Tk} (h : Sep loose (OperandText loose) qs ts) :
    ∃ t r, ts = t :: r ∧ ((∃ s, t = .ident s) ∨ ∃ v, t = .hw v) := by
  cases h with
  | one h => exact operand_head h
  | last _ h =>
    obtain ⟨t, r, rfl, h'⟩ := operand_head h
    exact ⟨t, _, rfl, h'⟩
  | cons h _ =>
    obtain ⟨t, r, rfl, h'⟩ := operand_head h
    exact ⟨t, _, rfl, h'⟩

theorem operands_text {loose : Bool} {qs : List Operand} {ts : List Tk} (h : Sep loose (OperandText loose) qs ts) (rest : List Tk) :
    list operand .semi (ts ++ .semi :: rest) = some (qs, rest) := by
  refine list_text (fun x ts rest h hr => operand_text h rest ?_) ?_ (by simp) h rest
  · rcases hr with hr | hr <;> rw [hr] <;> simp
  · intro x ts rest h
    obtain ⟨t, r, rfl, h'⟩ := operand_head h
    rcases h' with ⟨s, rfl⟩ | ⟨v, rfl⟩ <;> simp

theorem indices_sound : ∀ n ix ts r, indices n ts = some (ix, r) → ∃ pre, ts = pre ++ r ∧ Cat (IndexText true) ix pre := by
  intro n
  induction n with
  | zero => intro ix ts r h; simp [indices] at h
  | succ n ih =>
    intro ix ts r h
    rw [indices.eq_def] at h
    simp only at h
    split at h
    · next ts =>
      simp only [Option.bind_eq_some_iff, Prod.exists, Option.some.injEq, Prod.mk.injEq] at h
      obtain ⟨x, r1, h1, l, r2, h2, rfl, rfl⟩ := h
      obtain ⟨pre, rfl, h3⟩ := list_sound (fun _ _ _ => expr_sound) h1
      obtain ⟨pre', rfl, h4⟩ := ih _ _ _ h2
      refine ⟨(.lbr :: (pre ++ [.rbr])) ++ pre', by simp, .cons ?_ h4⟩
      rcases h3 with ⟨rfl, rfl⟩ | h3
      · exact .empty rfl
      · exact .mk h3
    · simp only [Option.some.injEq, Prod.mk.injEq] at h
      obtain ⟨rfl, rfl⟩ := h
      exact ⟨[], rfl, .nil⟩

theorem ref_sound {x : Ref} {ts r : List Tk} (h : ref ts = some (x, r)) : ∃ pre, ts = pre ++ r ∧ RefText true x pre := by
  simp only [ref, Option.bind_eq_some_iff, Prod.exists, Option.some.injEq, Prod.mk.injEq, ident_iff] at h
  obtain ⟨s, r1, rfl, ix, r2, h, rfl, rfl⟩ := h
  obtain ⟨pre, rfl, h'⟩ := indices_sound _ _ _ _ h
  exact ⟨.ident s :: pre, rfl, .mk s h'⟩

theorem operand_sound {x : Operand} {ts r : List Tk} (h : operand ts = some (x, r)) : ∃ pre, ts = pre ++ r ∧ OperandText true x pre := by
  unfold operand at h
  split at h
  · next v r' =>
    simp only [Option.some.injEq, Prod.mk.injEq] at h
    obtain ⟨rfl, rfl⟩ := h
    exact ⟨[.hw v], rfl, .hw v⟩
  · simp only [Option.bind_eq_some_iff, Prod.exists, Option.some.injEq, Prod.mk.injEq] at h
    obtain ⟨y, r', h, rfl, rfl⟩ := h
    obtain ⟨pre, rfl, h'⟩ := ref_sound h
    exact ⟨pre, rfl, .ref h'⟩

/-! ### Gate calls -/

theorem modifiers_text {ms : List Modifier} {ts : List Tk} (h : Cat ModifierText ms ts) :
    ∀ n rest, ts.length < n → isModifier rest.head? = false → modifiers n (ts ++ rest) = some (ms, rest) := by
  induction h with
  | nil =>
    intro n rest hn hr
    obtain ⟨n, rfl⟩ : ∃ k, n = k + 1 := ⟨n - 1, by omega⟩
    rw [List.nil_append, modifiers, hr]
    simp
  | cons hx _ ih =>
    intro n rest hn hr
    obtain ⟨n, rfl⟩ : ∃ k, n = k + 1 := ⟨n - 1, by omega⟩
    simp only [List.length_append] at hn
    have key := fun hn => ih n rest hn hr
    cases hx with
    | inv =>
      simp only [List.length_cons, List.length_nil] at hn
      simp [modifiers, isModifier, modifier, key (by omega)]
    | pow h =>
      simp only [List.length_cons, List.length_nil, List.length_append] at hn
      have he := fun r => expr_text h (.rpar :: .at :: r) (by simp)
      simp only [List.append_assoc, List.cons_append, List.nil_append, modifiers, List.head?_cons, modifier, isModifier]
      simp [he, key (by omega)]
    | ctrl pos =>
      simp only [List.length_cons, List.length_nil] at hn
      cases pos <;> simp [modifiers, isModifier, modifier, ctrlArg, key (by omega)]
    | ctrls pos h =>
      simp only [List.length_cons, List.length_nil, List.length_append] at hn
      have he := fun r => expr_text h (.rpar :: .at :: r) (by simp)
      cases pos <;>
      · simp only [List.append_assoc, List.cons_append, List.nil_append, modifiers, List.head?_cons, modifier, isModifier]
        simp [he, ctrlArg, key (by omega)]

theorem arguments_text {loose : Bool} {as : List E} {ts : List Tk} (h : ArgsText loose as ts) (rest : List Tk) (hr : rest.head? ≠ some .lpar) :
    arguments (ts ++ rest) = some (as, rest) := by
  cases h with
  | none =>
    rw [List.nil_append]
    unfold arguments
    split
    · simp at hr
    · rfl
  | empty => exact list_empty _ _ _
  | mk h =>
    rw [List.cons_append, List.append_assoc]
    exact exprs_text (by simp) rfl (by simp) h rest

theorem call_text {loose : Bool} {ms : List Modifier} {as : List E} {qs : List Operand} {tm ta tq : List Tk} {g : String} {opt : Bool} {t : Tk}
    (hm : Cat ModifierText ms tm) (hg : ∀ r, gateName (t :: r) = some ((g, opt), r)) (ht : isModifier (some t) = false)
    (ha : ArgsText loose as ta) (hq : Sep loose (OperandText loose) qs tq ∨ (opt = true ∧ qs = [] ∧ tq = [])) (rest : List Tk) :
    call (tm ++ t :: (ta ++ (tq ++ .semi :: rest))) = some (.call g ms as qs, rest) := by
  have hhead : ∃ t r, tq ++ .semi :: rest = t :: r ∧ ((∃ s, t = .ident s) ∨ (∃ v, t = .hw v) ∨ t = .semi) := by
    rcases hq with hq | ⟨_, _, rfl⟩
    · obtain ⟨t, r, rfl, h⟩ := operands_head hq
      exact ⟨t, _, rfl, by tauto⟩
    · exact ⟨_, _, rfl, by simp⟩
  have h1 : (tq ++ .semi :: rest).head? ≠ some .lpar ∧ (tq ++ .semi :: rest).head? ≠ some .lbr := by
    obtain ⟨t, r, e, h⟩ := hhead
    rw [e]
    rcases h with ⟨s, rfl⟩ | ⟨v, rfl⟩ | rfl <;> simp
  have h2 : list operand .semi (tq ++ .semi :: rest) = some (qs, rest) := by
    rcases hq with hq | ⟨_, rfl, rfl⟩
    · exact operands_text hq rest
    · exact list_empty _ _ _
  have h3 : ¬ (opt = false ∧ qs = []) := by
    rintro ⟨h3, h4⟩
    rcases hq with hq | ⟨h5, _, _⟩
    · rw [h4] at hq; cases hq
    · rw [h5] at h3; cases h3
  rw [call, modifiers_text hm _ (t :: _) (by simp; omega) ht]
  simp only [Option.bind_some]
  rw [hg]
  simp only [Option.bind_some]
  rw [arguments_text ha _ h1.1]
  simp only [Option.bind_some]
  rw [if_neg h1.2, h2]
  simp only [Option.bind_some]
  rw [if_neg h3]

theorem quantum_call {ms : List Modifier} {tm : List Tk} (hm : Cat ModifierText ms tm) {t : Tk} (ht : t = .kw .gphase ∨ ∃ s, t = .ident s) (r : List Tk) :
    quantum (tm ++ t :: r) = call (tm ++ t :: r) := by
  cases hm with
  | nil => rcases ht with rfl | ⟨s, rfl⟩ <;> rfl
  | cons h _ =>
    cases h with
    | inv => rfl
    | pow h => rfl
    | ctrl pos => cases pos <;> rfl
    | ctrls pos h => cases pos <;> rfl

theorem quantum_text {loose : Bool} {q : Quantum} {ts : List Tk} (h : QuantumText loose q ts) (rest : List Tk) :
    quantum (ts ++ rest) = some (q, rest) := by
  cases h with
  | call g hm ha hq =>
    simp only [List.append_assoc, List.cons_append, List.nil_append]
    rw [quantum_call hm (.inr ⟨g, rfl⟩)]
    exact call_text hm (opt := false) (fun r => rfl) rfl ha (.inl hq) rest
  | gphase hm ha hq =>
    simp only [List.append_assoc, List.cons_append, List.nil_append]
    rw [quantum_call hm (.inl rfl)]
    exact call_text hm (opt := true) (fun r => rfl) rfl ha (.inl hq) rest
  | «global» hm ha =>
    simp only [List.append_assoc, List.cons_append, List.nil_append]
    rw [quantum_call hm (.inl rfl)]
    exact call_text hm (opt := true) (tq := []) (fun r => rfl) rfl ha (.inr ⟨rfl, rfl, rfl⟩) rest
  | reset h =>
    simp only [List.append_assoc, List.cons_append, List.nil_append, quantum]
    rw [operand_text h _ (by simp)]
    simp
  | barrier h =>
    simp only [List.append_assoc, List.cons_append, List.nil_append, quantum]
    rw [operands_text h]
    rfl
  | empty _ =>
    simp only [List.cons_append, List.nil_append, quantum, list_empty]
    rfl

theorem ctrlArg_sound {pos : Bool} {m : Modifier} {ts r : List Tk} (h : ctrlArg pos ts = some (m, r)) :
    ∃ pre, ts = pre ++ r ∧ ModifierText m (.kw (if pos then .ctrl else .negctrl) :: (pre ++ [.at])) := by
  unfold ctrlArg at h
  split at h
  · simp only [Option.bind_eq_some_iff, Prod.exists, Option.some.injEq, Prod.mk.injEq, expect_iff] at h
    obtain ⟨e, r1, h, r2, rfl, rfl, rfl⟩ := h
    obtain ⟨pre, rfl, h'⟩ := expr_sound h
    exact ⟨.lpar :: (pre ++ [.rpar]), by simp, by simpa using .ctrls pos h'⟩
  · simp only [Option.some.injEq, Prod.mk.injEq] at h
    obtain ⟨rfl, rfl⟩ := h
    exact ⟨[], rfl, .ctrl pos⟩

theorem modifier_sound {m : Modifier} {ts r : List Tk} (h : modifier ts = some (m, r)) :
    ∃ pre, ts = pre ++ r ∧ ModifierText m (pre ++ [.at]) := by
  unfold modifier at h
  split at h
  · simp only [Option.some.injEq, Prod.mk.injEq] at h
    obtain ⟨rfl, rfl⟩ := h
    exact ⟨[.kw .inv], rfl, .inv⟩
  · simp only [Option.bind_eq_some_iff, Prod.exists, Option.some.injEq, Prod.mk.injEq, expect_iff] at h
    obtain ⟨r0, rfl, e, r1, h, r2, rfl, rfl, rfl⟩ := h
    obtain ⟨pre, rfl, h'⟩ := expr_sound h
    exact ⟨.kw .pow :: .lpar :: (pre ++ [.rpar]), by simp, by simpa using .pow h'⟩
  · obtain ⟨pre, rfl, h'⟩ := ctrlArg_sound h
    exact ⟨.kw .ctrl :: pre, rfl, h'⟩
  · obtain ⟨pre, rfl, h'⟩ := ctrlArg_sound h
    exact ⟨.kw .negctrl :: pre, rfl, h'⟩
  · cases h

theorem modifiers_sound : ∀ n ms ts r, modifiers n ts = some (ms, r) → ∃ pre, ts = pre ++ r ∧ Cat ModifierText ms pre := by
  intro n
  induction n with
  | zero => intro ms ts r h; simp [modifiers] at h
  | succ n ih =>
    intro ms ts r h
    rw [modifiers] at h
    split at h
    · simp only [Option.bind_eq_some_iff, Prod.exists, Option.some.injEq, Prod.mk.injEq, expect_iff] at h
      obtain ⟨m, r1, h1, r2, rfl, l, r3, h2, rfl, rfl⟩ := h
      obtain ⟨pre, rfl, h3⟩ := modifier_sound h1
      obtain ⟨pre', rfl, h4⟩ := ih _ _ _ h2
      exact ⟨(pre ++ [.at]) ++ pre', by simp, .cons h3 h4⟩
    · simp only [Option.some.injEq, Prod.mk.injEq] at h
      obtain ⟨rfl, rfl⟩ := h
      exact ⟨[], rfl, .nil⟩

theorem arguments_sound {as : List E} {ts r : List Tk} (h : arguments ts = some (as, r)) : ∃ pre, ts = pre ++ r ∧ ArgsText true as pre := by
  unfold arguments at h
  split at h
  · obtain ⟨pre, rfl, h'⟩ := list_sound (fun _ _ _ => expr_sound) h
    refine ⟨.lpar :: (pre ++ [.rpar]), by simp, ?_⟩
    rcases h' with ⟨rfl, rfl⟩ | h'
    · exact .empty
    · exact .mk h'
  · simp only [Option.some.injEq, Prod.mk.injEq] at h
    obtain ⟨rfl, rfl⟩ := h
    exact ⟨[], rfl, .none⟩

theorem gateName_sound {g : String} {opt : Bool} {ts r : List Tk} (h : gateName ts = some ((g, opt), r)) :
    (ts = .kw .gphase :: r ∧ g = "gphase" ∧ opt = true) ∨ (ts = .ident g :: r ∧ opt = false) := by
  unfold gateName at h
  split at h
  · simp only [Option.some.injEq, Prod.mk.injEq] at h
    obtain ⟨⟨rfl, rfl⟩, rfl⟩ := h
    exact .inl ⟨rfl, rfl, rfl⟩
  · simp only [Option.bind_eq_some_iff, Prod.exists, Option.some.injEq, Prod.mk.injEq, ident_iff] at h
    obtain ⟨s, r1, rfl, ⟨rfl, rfl⟩, rfl⟩ := h
    exact .inr ⟨rfl, rfl⟩

theorem call_sound {q : Quantum} {ts r : List Tk} (h : call ts = some (q, r)) : ∃ pre, ts = pre ++ r ∧ QuantumText true q pre := by
  simp only [call, Option.bind_eq_some_iff, Prod.exists, Option.ite_none_left_eq_some, Option.some.injEq, Prod.mk.injEq] at h
  obtain ⟨ms, r1, h1, g, opt, r2, h2, as, r3, h3, h4, qs, r4, h5, h6, rfl, rfl⟩ := h
  obtain ⟨tm, rfl, hm⟩ := modifiers_sound _ _ _ _ h1
  obtain ⟨ta, rfl, ha⟩ := arguments_sound h3
  obtain ⟨tq, rfl, hq⟩ := list_sound (fun _ _ _ => operand_sound) h5
  rcases gateName_sound h2 with ⟨rfl, rfl, rfl⟩ | ⟨rfl, rfl⟩
  · rcases hq with ⟨rfl, rfl⟩ | hq
    · exact ⟨_, by simp, QuantumText.global hm ha⟩
    · exact ⟨_, by simp, QuantumText.gphase hm ha hq⟩
  · rcases hq with ⟨rfl, rfl⟩ | hq
    · simp at h6
    · exact ⟨_, by simp, QuantumText.call g hm ha hq⟩

theorem quantum_sound {q : Quantum} {ts r : List Tk} (h : quantum ts = some (q, r)) : ∃ pre, ts = pre ++ r ∧ QuantumText true q pre := by
  unfold quantum at h
  split at h
  iterate 6 exact call_sound h
  · simp only [Option.bind_eq_some_iff, Prod.exists, Option.some.injEq, Prod.mk.injEq, expect_iff] at h
    obtain ⟨q, r1, h, r2, rfl, rfl, rfl⟩ := h
    obtain ⟨pre, rfl, h'⟩ := operand_sound h
    exact ⟨_, by simp, QuantumText.reset h'⟩
  · simp only [Option.bind_eq_some_iff, Prod.exists, Option.some.injEq, Prod.mk.injEq] at h
    obtain ⟨qs, r1, h, rfl, rfl⟩ := h
    obtain ⟨pre, rfl, h'⟩ := list_sound (fun _ _ _ => operand_sound) h
    rcases h' with ⟨rfl, rfl⟩ | h'
    · exact ⟨_, by simp, QuantumText.empty rfl⟩
    · exact ⟨_, by simp, QuantumText.barrier h'⟩
  · cases h

/-! ### Declarations -/

theorem designator_text {d : Option E} {ts : List Tk} (h : DesText d ts) {allowed : Bool} (ha : allowed = false → d = none) (rest : List Tk)
    (hr : rest.head? ≠ some .lbr) : designator allowed (ts ++ rest) = some (d, rest) := by
  cases h with
  | none =>
    rw [List.nil_append]
    unfold designator
    split
    · simp at hr
    · rfl
  | some h =>
    have : allowed = true := by cases allowed <;> simp at ha ⊢
    simp only [List.append_assoc, List.cons_append, List.nil_append, designator]
    rw [if_pos this, expr_text h _ (by simp)]
    simp

theorem designator_sound {d : Option E} {ts r : List Tk} {allowed : Bool} (h : designator allowed ts = some (d, r)) :
    ∃ pre, ts = pre ++ r ∧ DesText d pre ∧ (allowed = false → d = none ∧ pre = []) := by
  unfold designator at h
  split at h
  · simp only [Option.ite_none_right_eq_some, Option.bind_eq_some_iff, Prod.exists, Option.some.injEq, Prod.mk.injEq, expect_iff] at h
    obtain ⟨ha, e, r1, h, r2, rfl, rfl, rfl⟩ := h
    obtain ⟨pre, rfl, h'⟩ := expr_sound h
    exact ⟨_, by simp, .some h', by simp [ha]⟩
  · simp only [Option.some.injEq, Prod.mk.injEq] at h
    obtain ⟨rfl, rfl⟩ := h
    exact ⟨[], rfl, .none, fun _ => ⟨rfl, rfl⟩⟩

theorem init_text {loose : Bool} {i : Init} {ts : List Tk} (h : InitText loose i ts) (rest : List Tk) :
    init (ts ++ .semi :: rest) = some (i, .semi :: rest) := by
  cases h with
  | expr h =>
    have h1 := h.head (.semi :: rest) (t := .kw .measure) rfl
    have h2 := h.head (.semi :: rest) (t := .lbr) rfl
    have h3 := expr_text h (.semi :: rest) (by simp)
    unfold init
    split
    · next e => rw [e] at h1; simp at h1
    · next e => rw [e] at h2; simp at h2
    · rw [h3]; rfl
  | measure h =>
    rw [List.cons_append, init, operand_text h _ (by simp)]
    rfl

theorem init_sound {i : Init} {ts r : List Tk} (h : init ts = some (i, r)) : ∃ pre, ts = pre ++ r ∧ InitText true i pre := by
  unfold init at h
  split at h
  · simp only [Option.bind_eq_some_iff, Prod.exists, Option.some.injEq, Prod.mk.injEq] at h
    obtain ⟨q, r1, h, rfl, rfl⟩ := h
    obtain ⟨pre, rfl, h'⟩ := operand_sound h
    exact ⟨_, by simp, .measure h'⟩
  · cases h
  · simp only [Option.bind_eq_some_iff, Prod.exists, Option.some.injEq, Prod.mk.injEq] at h
    obtain ⟨q, r1, h, rfl, rfl⟩ := h
    obtain ⟨pre, rfl, h'⟩ := expr_sound h
    exact ⟨_, rfl, .expr h'⟩

theorem optInit_text {loose : Bool} {i : Option Init} {ts : List Tk} (h : OptInitText loose i ts) (rest : List Tk) :
    optInit (ts ++ .semi :: rest) = some (i, .semi :: rest) := by
  cases h with
  | none => rfl
  | some h =>
    rw [List.cons_append, optInit, init_text h]
    rfl

theorem optInit_sound {i : Option Init} {ts r : List Tk} (h : optInit ts = some (i, r)) : ∃ pre, ts = pre ++ r ∧ OptInitText true i pre := by
  unfold optInit at h
  split at h
  · simp only [Option.bind_eq_some_iff, Prod.exists, Option.some.injEq, Prod.mk.injEq] at h
    obtain ⟨q, r1, h, rfl, rfl⟩ := h
    obtain ⟨pre, rfl, h'⟩ := init_sound h
    exact ⟨_, by simp, .some h'⟩
  · simp only [Option.some.injEq, Prod.mk.injEq] at h
    obtain ⟨rfl, rfl⟩ := h
    exact ⟨[], rfl, .none⟩

theorem optInit_head {loose : Bool} {i : Option Init} {ts : List Tk} (h : OptInitText loose i ts) (rest : List Tk) :
    (ts ++ .semi :: rest).head? ≠ some .lbr := by
  cases h <;> simp

theorem old_sized (k : TyKw) (h : k.old = true) : k.sized = true := by cases k <;> simp_all [TyKw.old, TyKw.sized]

theorem declaration_text {loose const : Bool} {s : Statement} {ts : List Tk} (h : DeclText loose const s ts) (rest : List Tk) :
    declaration const (ts ++ rest) = some (s, rest) := by
  cases h with
  | new s hk hs hd hi =>
    simp only [List.append_assoc, List.cons_append, List.nil_append, declaration]
    rw [if_neg (by simp [hk]), designator_text hd hs _ (by simp)]
    simp only [Option.bind_some]
    rw [ident_iff.2 rfl]
    simp only [Option.bind_some]
    rw [show ∀ ts, designator (_ && _) ts = designator (_ && _) ([] ++ ts) from fun _ => rfl,
      designator_text .none (fun _ => rfl) _ (optInit_head hi rest)]
    simp only [Option.bind_some]
    rw [optInit_text hi]
    simp [hk]
  | old s hk hd hi =>
    simp only [List.append_assoc, List.cons_append, List.nil_append, declaration]
    rw [if_pos hk]
    simp only [Option.bind_some]
    rw [ident_iff.2 rfl]
    simp only [Option.bind_some]
    rw [designator_text hd (by simp [hk, old_sized _ hk]) _ (optInit_head hi rest)]
    simp only [Option.bind_some]
    rw [optInit_text hi]
    simp [hk]

theorem declaration_sound {const : Bool} {s : Statement} {ts r : List Tk} (h : declaration const ts = some (s, r)) :
    ∃ pre, ts = pre ++ r ∧ DeclText true const s pre := by
  unfold declaration at h
  split at h
  · next k ts =>
    simp only [Option.bind_eq_some_iff, Prod.exists, Option.some.injEq, Prod.mk.injEq, expect_iff, ident_iff] at h
    obtain ⟨d, r1, h1, s, r2, rfl, d', r3, h2, i, r4, h3, r5, rfl, rfl, rfl⟩ := h
    obtain ⟨ti, rfl, hi⟩ := optInit_sound h3
    obtain ⟨td', rfl, hd', hn⟩ := designator_sound h2
    cases hk : k.old with
    | true =>
      rw [if_pos hk] at h1
      simp only [Option.some.injEq, Prod.mk.injEq] at h1
      obtain ⟨rfl, rfl⟩ := h1
      refine ⟨.ty k :: .ident s :: (td' ++ (ti ++ [.semi])), by simp, ?_⟩
      rw [if_pos rfl]
      exact .old s hk hd' hi
    | false =>
      rw [if_neg (by simp [hk])] at h1
      obtain ⟨td, rfl, hd, hn'⟩ := designator_sound h1
      obtain ⟨rfl, rfl⟩ := hn (by simp [hk])
      refine ⟨.ty k :: (td ++ .ident s :: (ti ++ [.semi])), by simp, ?_⟩
      rw [if_neg (by simp)]
      exact .new s hk (fun h => (hn' h).1) hd hi
  · cases h

/-! ### Gate definitions -/

theorem idents_text {l : List String} {ts : List Tk} (h : Sep false IdentText l ts) :
    ∀ n rest, ts.length < n → rest.head? ≠ some .comma → idents n (ts ++ rest) = some (l, rest) := by
  induction h with
  | one hx =>
    intro n rest hn hr
    obtain ⟨n, rfl⟩ : ∃ k, n = k + 1 := ⟨n - 1, by omega⟩
    obtain rfl := hx
    simp only [List.cons_append, List.nil_append, idents, ident_iff.2 rfl, Option.bind_some]
    split
    · simp at hr
    · rfl
  | last h _ => cases h
  | cons hx _ ih =>
    intro n rest hn hr
    obtain ⟨n, rfl⟩ : ∃ k, n = k + 1 := ⟨n - 1, by omega⟩
    obtain rfl := hx
    simp only [List.length_append, List.length_cons, List.length_nil] at hn
    simp only [List.cons_append, List.nil_append, idents, ident_iff.2 rfl, Option.bind_some]
    rw [ih n rest (by omega) hr]
    rfl

theorem idents_sound : ∀ n l ts r, idents n ts = some (l, r) → ∃ pre, ts = pre ++ r ∧ Sep false IdentText l pre := by
  intro n
  induction n with
  | zero => intro l ts r h; simp [idents] at h
  | succ n ih =>
    intro l ts r h
    simp only [idents, Option.bind_eq_some_iff, Prod.exists, ident_iff] at h
    obtain ⟨s, r1, rfl, h⟩ := h
    split at h
    · simp only [Option.bind_eq_some_iff, Prod.exists, Option.some.injEq, Prod.mk.injEq] at h
      obtain ⟨l', r2, h, rfl, rfl⟩ := h
      obtain ⟨pre, rfl, h'⟩ := ih _ _ _ h
      exact ⟨[.ident s] ++ .comma :: pre, by simp, .cons (show IdentText s [.ident s] from rfl) h'⟩
    · simp only [Option.some.injEq, Prod.mk.injEq] at h
      obtain ⟨rfl, rfl⟩ := h
      exact ⟨[.ident s], rfl, .one rfl⟩

theorem idents_head {l : List String} {ts : List Tk} (h : Sep false IdentText l ts) : ∃ s r, ts = .ident s :: r := by
  cases h with
  | one h => exact ⟨_, _, h⟩
  | last h _ => cases h
  | cons h _ => obtain rfl := h; exact ⟨_, _, rfl⟩

theorem params_text {l : List String} {ts : List Tk} (h : ParamsText l ts) (rest : List Tk) (hr : rest.head? ≠ some .lpar) :
    params (ts ++ rest) = some (l, rest) := by
  cases h with
  | none =>
    rw [List.nil_append]
    unfold params
    split
    · simp at hr
    · rfl
  | mk h =>
    simp only [List.append_assoc, List.cons_append, List.nil_append, params]
    rw [idents_text h _ _ (by simp; omega) (by simp)]
    simp

theorem params_sound {l : List String} {ts r : List Tk} (h : params ts = some (l, r)) : ∃ pre, ts = pre ++ r ∧ ParamsText l pre := by
  unfold params at h
  split at h
  · simp only [Option.bind_eq_some_iff, Prod.exists, Option.some.injEq, Prod.mk.injEq, expect_iff] at h
    obtain ⟨l, r1, h, r2, rfl, rfl, rfl⟩ := h
    obtain ⟨pre, rfl, h'⟩ := idents_sound _ _ _ _ h
    exact ⟨_, by simp, .mk h'⟩
  · simp only [Option.some.injEq, Prod.mk.injEq] at h
    obtain ⟨rfl, rfl⟩ := h
    exact ⟨[], rfl, .none⟩

theorem gateHead_text (g : String) {ps qs : List String} {tp tq : List Tk} (hp : ParamsText ps tp) (hq : Sep false IdentText qs tq)
    (rest : List Tk) (hr : rest.head? ≠ some .comma) : gateHead (.ident g :: (tp ++ (tq ++ rest))) = some ((g, ps, qs), rest) := by
  rw [gateHead, ident_iff.2 rfl]
  simp only [Option.bind_some]
  rw [params_text hp]
  · simp only [Option.bind_some]
    rw [idents_text hq _ _ (by simp; omega) hr]
    rfl
  · obtain ⟨s, r, rfl⟩ := idents_head hq
    simp

theorem gateHead_sound {g : String} {ps qs : List String} {ts r : List Tk} (h : gateHead ts = some ((g, ps, qs), r)) :
    ∃ tp tq, ts = .ident g :: (tp ++ (tq ++ r)) ∧ ParamsText ps tp ∧ Sep false IdentText qs tq := by
  simp only [gateHead, Option.bind_eq_some_iff, Prod.exists, Option.some.injEq, Prod.mk.injEq, ident_iff] at h
  obtain ⟨s, r1, rfl, ps, r2, h1, qs, r3, h2, ⟨rfl, rfl, rfl⟩, rfl⟩ := h
  obtain ⟨tq, rfl, hq⟩ := idents_sound _ _ _ _ h2
  obtain ⟨tp, rfl, hp⟩ := params_sound h1
  exact ⟨tp, tq, rfl, hp, hq⟩

/-- The tokens a quantum statement starts with. -/
def startsQuantum : Tk → Bool
  | .ident _ => true
  | .kw k => k = .inv || k = .pow || k = .ctrl || k = .negctrl || k = .gphase || k = .reset || k = .barrier
  | _ => false

theorem quantum_head {loose : Bool} {q : Quantum} {ts : List Tk} (h : QuantumText loose q ts) :
    ∃ t r, ts = t :: r ∧ startsQuantum t = true := by
  have key : ∀ {ms : List Modifier} {tm : List Tk} {t : Tk} (r : List Tk), Cat ModifierText ms tm → startsQuantum t = true →
      ∃ t' r', tm ++ t :: r = t' :: r' ∧ startsQuantum t' = true := by
    intro ms tm t r hm ht
    cases hm with
    | nil => exact ⟨_, _, rfl, ht⟩
    | cons h _ =>
      cases h with
      | inv => exact ⟨_, _, rfl, rfl⟩
      | pow h => exact ⟨_, _, rfl, rfl⟩
      | ctrl pos => exact ⟨_, _, rfl, by cases pos <;> rfl⟩
      | ctrls pos h => exact ⟨_, _, rfl, by cases pos <;> rfl⟩
  cases h with
  | call g hm ha hq => exact key _ hm rfl
  | gphase hm ha hq => exact key _ hm rfl
  | «global» hm ha => exact key _ hm rfl
  | reset h => exact ⟨_, _, rfl, rfl⟩
  | barrier h => exact ⟨_, _, rfl, rfl⟩
  | empty _ => exact ⟨_, _, rfl, rfl⟩

theorem body_text {loose : Bool} {b : List Quantum} {ts : List Tk} (h : Cat (QuantumText loose) b ts) :
    ∀ n rest, ts.length < n → body n (ts ++ .rbrace :: rest) = some (b, .rbrace :: rest) := by
  induction h with
  | nil =>
    intro n rest hn
    obtain ⟨n, rfl⟩ : ∃ k, n = k + 1 := ⟨n - 1, by omega⟩
    simp [body]
  | cons hx _ ih =>
    intro n rest hn
    obtain ⟨n, rfl⟩ : ∃ k, n = k + 1 := ⟨n - 1, by omega⟩
    simp only [List.length_append] at hn
    obtain ⟨t, r, e, ht⟩ := quantum_head hx
    rw [List.append_assoc, body, if_neg, quantum_text hx]
    · simp only [Option.bind_some]
      rw [ih n rest (by rw [e] at hn; simp at hn; omega)]
      rfl
    · rw [e]
      simp only [List.cons_append, List.head?_cons, Option.some.injEq]
      rintro rfl
      cases ht

theorem body_sound : ∀ n b ts r, body n ts = some (b, r) → ∃ pre, ts = pre ++ r ∧ Cat (QuantumText true) b pre := by
  intro n
  induction n with
  | zero => intro l ts r h; simp [body] at h
  | succ n ih =>
    intro b ts r h
    rw [body] at h
    split at h
    · simp only [Option.some.injEq, Prod.mk.injEq] at h
      obtain ⟨rfl, rfl⟩ := h
      exact ⟨[], rfl, .nil⟩
    · simp only [Option.bind_eq_some_iff, Prod.exists, Option.some.injEq, Prod.mk.injEq] at h
      obtain ⟨q, r1, h1, l, r2, h2, rfl, rfl⟩ := h
      obtain ⟨pre, rfl, h3⟩ := quantum_sound h1
      obtain ⟨pre', rfl, h4⟩ := ih _ _ _ h2
      exact ⟨pre ++ pre', by simp, .cons h3 h4⟩

/-! ### Statements without others inside -/

/-- The tokens that are not those of a branch, of a version, or of an `include`. -/
def startsStatement (t : Tk) : Prop := t ≠ .lbrace ∧ t ≠ .rbrace ∧ t ≠ .kw .els ∧ t ≠ .kw .openqasm ∧ t ≠ .kw .incl

theorem startsQuantum_statement {t : Tk} (h : startsQuantum t = true) : startsStatement t := by
  refine ⟨?_, ?_, ?_, ?_, ?_⟩ <;> rintro rfl <;> cases h

theorem simple_head {loose : Bool} {s : Statement} {ts : List Tk} (h : SimpleText loose s ts) :
    ∃ t r, ts = t :: r ∧ startsStatement t := by
  cases h with
  | decl h => cases h <;> exact ⟨_, _, rfl, by simp [startsStatement]⟩
  | const h => exact ⟨_, _, rfl, by simp [startsStatement]⟩
  | gate g _ _ _ => exact ⟨_, _, rfl, by simp [startsStatement]⟩
  | opaq g _ _ => exact ⟨_, _, rfl, by simp [startsStatement]⟩
  | assign o h _ => cases h; exact ⟨_, _, rfl, by simp [startsStatement]⟩
  | measure _ _ => exact ⟨_, _, rfl, by simp [startsStatement]⟩
  | quantum h =>
    obtain ⟨t, r, e, h⟩ := quantum_head h
    exact ⟨t, r, e, startsQuantum_statement h⟩
  | layout s => exact ⟨_, _, rfl, by simp [startsStatement]⟩
  | outputs s => exact ⟨_, _, rfl, by simp [startsStatement]⟩

theorem skipInclude_eq (F : Files) {ts : List Tk} (h : ts.head? ≠ some (.kw .incl)) : skipInclude F ts = some ts := by
  unfold skipInclude
  split
  · simp at h
  · simp at h
  · rfl

theorem assign_ref {loose : Bool} {l : Ref} {tl : List Tk} (h : RefText loose l tl) (o : Asg) (r : List Tk) :
    ∃ s r', tl ++ .asg o :: r = .ident s :: r' ∧ isAssignment r'.head? = true := by
  cases h with
  | mk s h =>
    refine ⟨s, _, rfl, ?_⟩
    cases h with
    | nil => rfl
    | cons h _ => cases h <;> rfl

theorem statementOf_quantum (st : P Statement) (n : ℕ) {t : Tk} {r : List Tk} (h : startsQuantum t = true)
    (hi : ∀ s, t = .ident s → isAssignment r.head? = false) :
    statementOf st n (t :: r) = (quantum (t :: r)).bind fun q => some (.quantum q.1, q.2) := by
  cases t with
  | ident s => simp [statementOf, hi s rfl]
  | kw k => cases k <;> first | rfl | cases h
  | _ => cases h

theorem not_assignment {loose : Bool} {q : Quantum} {s : String} {r : List Tk} (h : QuantumText loose q (.ident s :: r)) (rest : List Tk) :
    isAssignment (r ++ rest).head? = false := by
  have key : ∀ {ms : List Modifier} {tm r' : List Tk} {t : Tk}, Cat ModifierText ms tm → .ident s :: r = tm ++ t :: r' → t = .ident s ∧ r = r' := by
    intro ms tm r' t hm e
    cases hm with
    | nil => simpa [eq_comm] using e
    | cons h _ =>
      cases h with
      | ctrl pos => simp at e
      | ctrls pos h => simp at e
      | _ => simp at e
  generalize e : Tk.ident s :: r = ts at h
  cases h with
  | call g hm ha hq =>
    obtain ⟨-, rfl⟩ := key hm e
    cases ha with
    | none =>
      obtain ⟨t, r, rfl, h⟩ := operands_head hq
      rcases h with ⟨s, rfl⟩ | ⟨v, rfl⟩ <;> rfl
    | empty => rfl
    | mk h => rfl
  | gphase hm ha hq => cases (key hm e).1
  | «global» hm ha => cases (key hm e).1
  | _ => simp at e

theorem simple_text {loose : Bool} {s : Statement} {ts : List Tk} (h : SimpleText loose s ts) (st : P Statement) (n : ℕ) (rest : List Tk) :
    statementOf st n (ts ++ rest) = some (s, rest) := by
  cases h with
  | decl h =>
    have := declaration_text h rest
    cases h <;> exact this
  | const h => exact declaration_text h rest
  | gate g hp hq hb =>
    simp only [List.append_assoc, List.cons_append, List.nil_append, statementOf, gateDefinition]
    rw [gateHead_text g hp hq _ (by simp)]
    simp only [Option.bind_some, expect_cons]
    rw [body_text hb _ _ (by simp; omega)]
    simp
  | opaq g hp hq =>
    simp only [List.append_assoc, List.cons_append, List.nil_append, statementOf, opaqueDefinition]
    rw [gateHead_text g hp hq _ (by simp)]
    simp
  | @assign o l i tl ti hl hi =>
    have : assignment (tl ++ .asg o :: (ti ++ .semi :: rest)) = some (.assign o l i, rest) := by
      rw [assignment, ref_text hl _ (by simp)]
      simp only [Option.bind_some, asgOp]
      rw [init_text hi]
      simp
    obtain ⟨s, r', e, ha⟩ := assign_ref hl o (ti ++ .semi :: rest)
    simp only [List.append_assoc, List.cons_append, List.nil_append]
    rw [e] at this ⊢
    simp only [statementOf, ha, if_true]
    exact this
  | measure hq hc =>
    simp only [List.append_assoc, List.cons_append, List.nil_append, statementOf, Program.measure]
    rw [operand_text hq _ (by simp)]
    simp only [Option.bind_some, expect_cons]
    rw [ref_text hc _ (by simp)]
    simp
  | quantum h =>
    have key := quantum_text h rest
    obtain ⟨t, r, rfl, ht⟩ := quantum_head h
    rw [List.cons_append] at key ⊢
    rw [statementOf_quantum st n ht, key]
    · rfl
    · rintro s rfl
      exact not_assignment h rest
  | layout s => rfl
  | outputs s => rfl

/-! ### All statements -/

theorem one_head {loose : Bool} {sh : Shape} {c : Bool} {l : List Statement} {ts : List Tk} (h : StText loose sh c l ts) (hs : sh = .one) :
    ∃ t r, ts = t :: r ∧ startsStatement t := by
  cases h with
  | simple c h => exact simple_head h
  | cond c _ _ => exact ⟨_, _, rfl, by simp [startsStatement]⟩
  | condElse _ _ _ => exact ⟨_, _, rfl, by simp [startsStatement]⟩
  | _ => cases hs

theorem seq_head {loose : Bool} {sh : Shape} {c : Bool} {l : List Statement} {ts : List Tk} (h : StText loose sh c l ts) (hs : sh = .seq) (rest : List Tk) :
    (ts ++ .rbrace :: rest).head? ≠ some (.kw .els) := by
  cases h with
  | nil c => simp
  | cons c c' h _ =>
    obtain ⟨t, r, rfl, ht⟩ := one_head h rfl
    simp [ht.2.2.1]
  | _ => cases hs

/-- What is read at a text of each shape. -/
def Reads (F : Files) (c : Bool) (l : List Statement) (ts : List Tk) : Shape → Prop
  | .one => ∃ s, l = [s] ∧ ∀ n rest, ts.length ≤ n → (c = false → rest.head? ≠ some (.kw .els)) → statement F n (ts ++ rest) = some (s, rest)
  | .seq => ∀ n m rest, ts.length ≤ n → ts.length < m → statements (statement F n) m (ts ++ .rbrace :: rest) = some (l, .rbrace :: rest)
  | .block => ∀ n m rest, ts.length ≤ n → ts.length ≤ m → (c = false → rest.head? ≠ some (.kw .els)) → block (statement F n) m (ts ++ rest) = some (l, rest)

theorem ifStatement_text {st : P Statement} {n : ℕ} {c : E} {t e : List Statement} {tc r1 r2 rest : List Tk} (hc : ExprText c tc)
    (h1 : block st n r1 = some (t, r2)) (h2 : elseBranch st n r2 = some (e, rest)) :
    ifStatement st n (.lpar :: (tc ++ .rpar :: r1)) = some (.ite c t e, rest) := by
  rw [ifStatement]
  simp only [expect_cons, Option.bind_some]
  rw [expr_text hc _ (by simp)]
  simp [h1, h2]

theorem elseBranch_none {st : P Statement} {n : ℕ} {ts : List Tk} (h : ts.head? ≠ some (.kw .els)) : elseBranch st n ts = some ([], ts) := by
  unfold elseBranch
  split
  · simp at h
  · rfl

theorem st_text (F : Files) {loose : Bool} {sh : Shape} {c : Bool} {l : List Statement} {ts : List Tk} (h : StText loose sh c l ts) :
    Reads F c l ts sh := by
  induction h with
  | simple c h =>
    refine ⟨_, rfl, fun n rest hn _ => ?_⟩
    obtain ⟨t, r, rfl, ht⟩ := simple_head h
    simp only [List.length_cons] at hn
    obtain ⟨n, rfl⟩ : ∃ k, n = k + 1 := ⟨n - 1, by omega⟩
    rw [statement, skipInclude_eq F (by simp [ht.2.2.2.2])]
    exact simple_text h _ n rest
  | cond c hc _ ih =>
    refine ⟨_, rfl, fun n rest hn hr => ?_⟩
    simp only [List.length_cons, List.length_append] at hn
    obtain ⟨n, rfl⟩ : ∃ k, n = k + 1 := ⟨n - 1, by omega⟩
    rw [statement, skipInclude_eq F (by simp)]
    simp only [List.append_assoc, List.cons_append, Option.bind_some, statementOf]
    exact ifStatement_text hc (ih n n rest (by omega) (by omega) fun _ => hr rfl) (elseBranch_none (hr rfl))
  | condElse hc _ _ ih1 ih2 =>
    refine ⟨_, rfl, fun n rest hn hr => ?_⟩
    simp only [List.length_cons, List.length_append] at hn
    obtain ⟨n, rfl⟩ : ∃ k, n = k + 1 := ⟨n - 1, by omega⟩
    rw [statement, skipInclude_eq F (by simp)]
    simp only [List.append_assoc, List.cons_append, Option.bind_some, statementOf]
    exact ifStatement_text hc (ih1 n n _ (by omega) (by omega) (by simp)) (ih2 n n rest (by omega) (by omega) hr)
  | nil c =>
    intro n m rest hn hm
    obtain ⟨m, rfl⟩ : ∃ k, m = k + 1 := ⟨m - 1, by omega⟩
    simp [statements]
  | cons c c' h1 h2 ih1 ih2 =>
    intro n m rest hn hm
    obtain ⟨m, rfl⟩ : ∃ k, m = k + 1 := ⟨m - 1, by omega⟩
    obtain ⟨t, r, rfl, ht⟩ := one_head h1 rfl
    obtain ⟨s, e, ih1⟩ := ih1
    obtain rfl : _ = s := by simpa using e
    simp only [List.length_cons, List.length_append] at hn hm
    rw [List.append_assoc, statements, if_neg (by simp [ht.2.1]), ih1 n _ (by simp; omega)]
    · simp only [Option.bind_some]
      rw [ih2 n m rest (by omega) (by omega)]
      rfl
    · exact fun _ => seq_head h2 rfl rest
  | braces c' _ ih =>
    intro n m rest hn hm _
    simp only [List.length_cons, List.length_append, List.length_nil] at hn hm
    simp only [List.append_assoc, List.cons_append, List.nil_append, block]
    rw [ih n m rest (by omega) (by omega)]
    simp
  | single h1 ih =>
    intro n m rest hn hm hr
    obtain ⟨t, r, rfl, ht⟩ := one_head h1 rfl
    obtain ⟨s, e, ih1⟩ := ih
    obtain rfl : _ = s := by simpa using e
    have := ih1 n rest hn hr
    rw [List.cons_append] at this ⊢
    unfold block
    split
    · next e => simp only [List.cons.injEq] at e; exact absurd e.1 ht.1
    · rw [this]; rfl

/-! ### Nothing else is read -/

theorem gateDefinition_sound {s : Statement} {ts r : List Tk} (h : gateDefinition ts = some (s, r)) :
    ∃ pre, ts = pre ++ r ∧ SimpleText true s (.kw .gate :: pre) := by
  simp only [gateDefinition, Option.bind_eq_some_iff, Prod.exists, Option.some.injEq, Prod.mk.injEq, expect_iff] at h
  obtain ⟨g, ps, qs, r1, h1, r2, rfl, b, r3, h2, r4, rfl, rfl, rfl⟩ := h
  obtain ⟨tb, rfl, hb⟩ := body_sound _ _ _ _ h2
  obtain ⟨tp, tq, rfl, hp, hq⟩ := gateHead_sound h1
  exact ⟨_, by simp, .gate g hp hq hb⟩

theorem opaqueDefinition_sound {s : Statement} {ts r : List Tk} (h : opaqueDefinition ts = some (s, r)) :
    ∃ pre, ts = pre ++ r ∧ SimpleText true s (.kw .opaq :: pre) := by
  simp only [opaqueDefinition, Option.bind_eq_some_iff, Prod.exists, Option.some.injEq, Prod.mk.injEq, expect_iff] at h
  obtain ⟨g, ps, qs, r1, h1, r2, rfl, rfl, rfl⟩ := h
  obtain ⟨tp, tq, rfl, hp, hq⟩ := gateHead_sound h1
  exact ⟨_, by simp, .opaq g hp hq⟩

theorem assignment_sound {s : Statement} {ts r : List Tk} (h : assignment ts = some (s, r)) :
    ∃ pre, ts = pre ++ r ∧ SimpleText true s pre := by
  have ho : ∀ ts o r, asgOp ts = some (o, r) ↔ ts = .asg o :: r := by
    intro ts o r
    unfold asgOp
    split
    · simp
    · next h => simp only [reduceCtorEq, false_iff]; rintro rfl; exact h _ _ rfl
  simp only [assignment, Option.bind_eq_some_iff, Prod.exists, Option.some.injEq, Prod.mk.injEq, expect_iff, ho] at h
  obtain ⟨l, r1, h1, o, r2, rfl, i, r3, h2, r4, rfl, rfl, rfl⟩ := h
  obtain ⟨ti, rfl, hi⟩ := init_sound h2
  obtain ⟨tl, rfl, hl⟩ := ref_sound h1
  exact ⟨_, by simp, .assign o hl hi⟩

theorem measure_sound {s : Statement} {ts r : List Tk} (h : measure ts = some (s, r)) :
    ∃ pre, ts = pre ++ r ∧ SimpleText true s (.kw .measure :: pre) := by
  simp only [measure, Option.bind_eq_some_iff, Prod.exists, Option.some.injEq, Prod.mk.injEq, expect_iff] at h
  obtain ⟨q, r1, h1, r2, rfl, c, r3, h2, r4, rfl, rfl, rfl⟩ := h
  obtain ⟨tc, rfl, hc⟩ := ref_sound h2
  obtain ⟨tq, rfl, hq⟩ := operand_sound h1
  exact ⟨_, by simp, .measure hq hc⟩

/-- What is read is a text, and closed if an `else` comes after it. -/
def Sound (sh : Shape) (l : List Statement) (ts r : List Tk) : Prop :=
  ∃ pre c, ts = pre ++ r ∧ StText true sh c l pre ∧ (r.head? = some (.kw .els) → c = true)

/-- On texts without `include`. -/
def SoundP (st : P Statement) : Prop := ∀ s ts r, .kw .incl ∉ ts → st ts = some (s, r) → Sound .one [s] ts r

theorem statements_sound {st : P Statement} (h : SoundP st) : ∀ n l ts r, .kw .incl ∉ ts → statements st n ts = some (l, r) →
    ∃ pre, ts = pre ++ r ∧ StText true .seq true l pre := by
  intro n
  induction n with
  | zero => intro l ts r _ h; simp [statements] at h
  | succ n ih =>
    intro l ts r hi e
    rw [statements] at e
    split at e
    · simp only [Option.some.injEq, Prod.mk.injEq] at e
      obtain ⟨rfl, rfl⟩ := e
      exact ⟨[], rfl, .nil _⟩
    · simp only [Option.bind_eq_some_iff, Prod.exists, Option.some.injEq, Prod.mk.injEq] at e
      obtain ⟨s, r1, h1, l, r2, h2, rfl, rfl⟩ := e
      obtain ⟨pre, c, rfl, h3, -⟩ := h _ _ _ hi h1
      obtain ⟨pre', rfl, h4⟩ := ih _ _ _ (fun h => hi (List.mem_append_right _ h)) h2
      exact ⟨pre ++ pre', by simp, .cons _ c h3 h4⟩

theorem block_sound {st : P Statement} (h : SoundP st) {n : ℕ} {l : List Statement} {ts r : List Tk} (hi : .kw .incl ∉ ts)
    (e : block st n ts = some (l, r)) : Sound .block l ts r := by
  unfold block at e
  split at e
  · simp only [Option.bind_eq_some_iff, Prod.exists, Option.some.injEq, Prod.mk.injEq, expect_iff] at e
    obtain ⟨l, r1, h1, r2, rfl, rfl, rfl⟩ := e
    obtain ⟨pre, rfl, h2⟩ := statements_sound h _ _ _ _ (fun h => hi (List.mem_cons_of_mem _ h)) h1
    exact ⟨_, true, by simp, .braces true h2, fun _ => rfl⟩
  · simp only [Option.bind_eq_some_iff, Prod.exists, Option.some.injEq, Prod.mk.injEq] at e
    obtain ⟨s, r1, h1, rfl, rfl⟩ := e
    obtain ⟨pre, c, rfl, h3, h4⟩ := h _ _ _ hi h1
    exact ⟨pre, c, rfl, .single h3, h4⟩

theorem ifStatement_sound {st : P Statement} (h : SoundP st) {n : ℕ} {s : Statement} {ts r : List Tk} (hi : .kw .incl ∉ ts)
    (e : ifStatement st n ts = some (s, r)) : Sound .one [s] (.kw .cond :: ts) r := by
  simp only [ifStatement, Option.bind_eq_some_iff, Prod.exists, Option.some.injEq, Prod.mk.injEq, expect_iff] at e
  obtain ⟨r1, rfl, c, r2, h1, r3, rfl, t, r4, h2, el, r5, h3, rfl, rfl⟩ := e
  obtain ⟨tc, rfl, hc⟩ := expr_sound h1
  have hi1 : .kw .incl ∉ r3 := fun h => hi (by simp [h])
  obtain ⟨tt, c1, rfl, ht, hcl⟩ := block_sound h hi1 h2
  unfold elseBranch at h3
  split at h3
  · next r6 =>
    have hi2 : .kw .incl ∉ r6 := fun h => hi1 (by simp [h])
    obtain ⟨te, c2, rfl, he, hcl'⟩ := block_sound h hi2 h3
    obtain rfl := hcl rfl
    exact ⟨_, c2, by simp, .condElse hc ht he, hcl'⟩
  · next r6 hn =>
    simp only [Option.some.injEq, Prod.mk.injEq] at h3
    obtain ⟨rfl, rfl⟩ := h3
    refine ⟨_, false, by simp, .cond c1 hc ht, fun he => ?_⟩
    obtain ⟨r, rfl⟩ := List.head?_eq_some_iff.1 he
    exact (hn r rfl).elim

theorem Sound.simple {s : Statement} {pre r : List Tk} (h : SimpleText true s pre) : Sound .one [s] (pre ++ r) r :=
  ⟨pre, true, rfl, .simple true h, fun _ => rfl⟩

theorem statementOf_sound {st : P Statement} (h : SoundP st) {n : ℕ} {s : Statement} {ts r : List Tk} (hi : .kw .incl ∉ ts)
    (e : statementOf st n ts = some (s, r)) : Sound .one [s] ts r := by
  have hq : ∀ {ts}, ((quantum ts).bind fun q => some (Statement.quantum q.1, q.2)) = some (s, r) → Sound .one [s] ts r := by
    intro ts h
    simp only [Option.bind_eq_some_iff, Prod.exists, Option.some.injEq, Prod.mk.injEq] at h
    obtain ⟨q, r1, h1, rfl, rfl⟩ := h
    obtain ⟨pre, rfl, h2⟩ := quantum_sound h1
    exact .simple (.quantum h2)
  unfold statementOf at e
  split at e
  · obtain ⟨pre, rfl, h'⟩ := declaration_sound e
    exact .simple (pre := .kw .const :: pre) (.const h')
  · obtain ⟨pre, h1, h'⟩ := declaration_sound e
    rw [h1]
    exact .simple (.decl h')
  · simp only [Option.some.injEq, Prod.mk.injEq] at e
    obtain ⟨rfl, rfl⟩ := e
    exact .simple (.layout _)
  · simp only [Option.some.injEq, Prod.mk.injEq] at e
    obtain ⟨rfl, rfl⟩ := e
    exact .simple (.outputs _)
  · obtain ⟨pre, rfl, h'⟩ := gateDefinition_sound e
    exact .simple h'
  · obtain ⟨pre, rfl, h'⟩ := opaqueDefinition_sound e
    exact .simple h'
  · split at e
    · obtain ⟨pre, h1, h'⟩ := assignment_sound e
      rw [h1]
      exact .simple h'
    · exact hq e
  · exact ifStatement_sound h (fun h => hi (List.mem_cons_of_mem _ h)) e
  · obtain ⟨pre, rfl, h'⟩ := measure_sound e
    exact .simple h'
  · exact hq e

theorem statement_sound (F : Files) (n : ℕ) : SoundP (statement F n) := by
  induction n with
  | zero => intro s ts r _ h; simp [statement] at h
  | succ n ih =>
    intro s ts r hi h
    rw [statement, skipInclude_eq F (fun h => hi (List.mem_of_mem_head? h))] at h
    exact statementOf_sound ih hi h

/-! ### Programs -/

theorem program_head {loose : Bool} {F : Files} {a : Bool} {l : List Statement} {ts : List Tk} (h : ProgramText loose F a l ts) :
    ts.head? ≠ some (.kw .els) := by
  cases h with
  | nil a => simp
  | version s neg _ => simp
  | cons a c h _ =>
    obtain ⟨t, r, rfl, ht⟩ := one_head h rfl
    simp [ht.2.2.1]
  | incl a c f _ _ _ => simp

theorem program_step (F : Files) (n : ℕ) (a : Bool) {t : Tk} (r : List Tk) (ht : t ≠ .kw .openqasm) :
    program F (n + 1) a (t :: r) = (statement F n (t :: r)).bind fun s => (program F n (a && isComment (some t)) s.2).bind fun l => some (s.1 :: l) := by
  rw [program]
  exact ht

theorem program_text {loose : Bool} {F : Files} {a : Bool} {l : List Statement} {ts : List Tk} (h : ProgramText loose F a l ts) :
    ∃ N, ∀ n ≥ N, program F n a ts = some l := by
  induction h with
  | nil a =>
    refine ⟨1, fun n hn => ?_⟩
    obtain ⟨n, rfl⟩ : ∃ k, n = k + 1 := ⟨n - 1, by omega⟩
    rfl
  | version s neg _ ih =>
    obtain ⟨N, ih⟩ := ih
    refine ⟨N + 1, fun n hn => ?_⟩
    obtain ⟨n, rfl⟩ : ∃ k, n = k + 1 := ⟨n - 1, by omega⟩
    simp [program, version, ih n (by omega)]
  | @cons a c s l ts ts' h h' ih =>
    obtain ⟨N, ih⟩ := ih
    refine ⟨max N ts.length + 1, fun n hn => ?_⟩
    obtain ⟨n, rfl⟩ : ∃ k, n = k + 1 := ⟨n - 1, by omega⟩
    obtain ⟨s', e, hr⟩ := st_text F h
    obtain rfl : s = s' := by simpa using e
    have key := hr n ts' (by omega) fun _ => program_head h'
    obtain ⟨t, r, rfl, ht⟩ := one_head h rfl
    rw [List.cons_append] at key ⊢
    rw [program_step F n a _ ht.2.2.2.1, key]
    have := ih n (by omega)
    rw [List.head?_cons] at this
    simp [this]
  | @incl a c f s l ts ts' rest hf h h' ih =>
    obtain ⟨N, ih⟩ := ih
    refine ⟨max N ts.length + 2, fun n hn => ?_⟩
    obtain ⟨n, rfl⟩ : ∃ k, n = k + 2 := ⟨n - 2, by omega⟩
    obtain ⟨s', e, hr⟩ := st_text F h
    obtain rfl : s = s' := by simpa using e
    have key := hr (n + 1) ts' (by omega) fun _ => program_head h'
    obtain ⟨t, r, rfl, ht⟩ := one_head h rfl
    rw [statement, skipInclude_eq F (by simp [ht.2.2.2.2])] at key
    rw [program_step F _ a _ (by simp), statement, skipInclude, hf]
    simp only [Option.bind_some] at key ⊢
    rw [key]
    have := ih (n + 1) (by omega)
    simp [isComment, this]

theorem program_sound (F : Files) : ∀ n a l ts, .kw .incl ∉ ts → program F n a ts = some l → ProgramText true F a l ts := by
  intro n
  induction n with
  | zero => intro a l ts _ h; simp [program] at h
  | succ n ih =>
    intro a l ts hi h
    rw [program.eq_def] at h
    simp only at h
    split at h
    · simp only [Option.some.injEq] at h
      rw [← h]
      exact .nil a
    · next r =>
      simp only [Option.ite_none_right_eq_some, Option.bind_eq_some_iff, Prod.exists, Option.some.injEq] at h
      obtain ⟨rfl, v, r1, h1, l, h2, rfl⟩ := h
      unfold version at h1
      split at h1
      · simp only [Option.bind_eq_some_iff, Option.some.injEq, Prod.mk.injEq, expect_iff] at h1
        obtain ⟨r2, rfl, rfl, rfl⟩ := h1
        exact .version _ _ (ih _ _ _ (fun h => hi (by simp [h])) h2)
      · cases h1
    · simp only [Option.bind_eq_some_iff, Prod.exists, Option.some.injEq] at h
      obtain ⟨s, r1, h1, l, h2, rfl⟩ := h
      obtain ⟨pre, c, e, h3, -⟩ := statement_sound F n _ _ _ hi h1
      rw [e] at hi ⊢
      obtain ⟨t, r, rfl, ht⟩ := one_head h3 rfl
      simp only [List.cons_append, List.cons.injEq] at e
      refine .cons a c h3 (ih _ _ _ (fun h => hi (List.mem_append_right _ h)) ?_)
      rw [List.head?_cons, ← e.1]
      exact h2

end MQT.QASM.Program
