/-
C104: the type check of OpenQASM programs.
-/
import Verif.QASM.TypeCheckProof

set_option autoImplicit false

namespace MQT.QASM.TypeCheck

/-- **C104.** The check of an expression returns its type, and reports an error if it has none.
Missing from C104: expressions with an identifier twice, or with two of the builtins (`c104_twice`, `c104_builtins`), and unknown
identifiers (`c104_null`). -/
theorem c104_expression_partial (e : Ex) {s : St} (hv : s.Valid) (hs : Separate s e.names) (hk : Known s e.names) :
    (∀ t, HasTy s.ctx e t → ∃ i s', visit e s = .ok (some i, s') ∧ s'.heap[i]? = some t ∧ s'.err = s.err) ∧
    ((∀ t, ¬ HasTy s.ctx e t) → ∀ a, visit e s = .ok a → a.2.err = true) := by
  rcases visit_checked e hv hs hk with ⟨i, s', t, h1, h2, h3, h4⟩ | ⟨hn, he⟩
  · refine ⟨fun u hu => ?_, fun hn => absurd h3 (hn t)⟩
    cases hasTy_unique h3 hu
    exact ⟨i, s', h1, h2, h4⟩
  · exact ⟨fun t ht => absurd ht (hn t), fun _ => he⟩

/-- **C104.** A condition is accepted if and only if it is one bit or boolean.
Missing from C104: as for expressions. -/
theorem c104_condition_partial (c : Ex) {s : St} (hv : s.Valid) (he : s.err = false) (hs : Separate s c.names) (hk : Known s c.names) :
    (∃ s', process (.ite c [] []) s = .ok s') ↔ ∃ t, HasTy s.ctx c t ∧ t.toBool = true := by
  rw [process, stmt]
  simp only [stmts]
  rcases visit_checked c hv hs hk with ⟨i, s', t, h1, h2, h3, h4⟩ | ⟨hn, herr⟩
  · rw [h1]
    simp only [Res.bind, deref_some h2, reduceCtorEq, if_false]
    cases ht : t.toBool
    · refine ⟨fun ⟨s2, h⟩ => by simp at h, fun ⟨u, hu, hb⟩ => ?_⟩
      cases hasTy_unique h3 hu
      rw [ht] at hb
      cases hb
    · exact ⟨fun _ => ⟨t, h3, ht⟩, fun _ => ⟨s', by simp [h4, he]⟩⟩
  · refine ⟨fun ⟨s2, h⟩ => ?_, fun ⟨t, ht, _⟩ => absurd ht (hn t)⟩
    obtain ⟨s3, h, h'⟩ := bind_eq_ok h
    obtain ⟨a, ha, h⟩ := bind_eq_ok h
    obtain ⟨s4, h, h3⟩ := bind_eq_ok h
    have hea := herr a ha
    have h4 : s4.err = true := by
      split_ifs at h
      · cases h; exact hea
      · obtain ⟨u, _, h⟩ := bind_eq_ok h
        cases h
        split_ifs
        · exact hea
        · rfl
    simp only [Res.bind] at h3
    cases h3
    rw [h4] at h'
    cases h'

/-- **C104.** A program without branches whose expressions are literals is accepted if and only if every identifier is declared
before its use, every index is an unsigned integer, and every measurement fits into its target.
Missing from C104: other programs (`c104_narrowed`, `c104_widened`). -/
theorem c104_program_partial {l : List Stmt} (hl : ∀ x ∈ l, Straight x) {s : St} (hv : s.Valid) (he : s.err = false) :
    (∃ s', program l s = .ok s') ↔ ∃ Γ, AcceptsAll s.ctx l Γ := by
  rcases program_straight hl hv he with ⟨s', h1, _, _, h4⟩ | ⟨h1, h2⟩
  · exact ⟨fun _ => ⟨_, h4⟩, fun _ => ⟨s', h1⟩⟩
  · exact ⟨fun ⟨s', h⟩ => absurd h (h2 s'), fun ⟨Γ, h⟩ => absurd h (h1 Γ)⟩

theorem accepts_kept {Γ Γ' : Ctx} {x : Stmt} (h : Accepts Γ x Γ') {y : String} {t : Ty} (hy : Γ y = some t) : Γ' y = some t := by
  cases h with
  | decl x _ _ =>
    unfold declare
    split_ifs with e
    · subst e; rw [hy]; rfl
    · exact hy
  | gate _ => exact hy
  | assign => exact hy
  | quantum _ => exact hy
  | other => exact hy

theorem acceptsAll_kept {Γ Γ' : Ctx} {l : List Stmt} (h : AcceptsAll Γ l Γ') {y : String} {t : Ty} (hy : Γ y = some t) : Γ' y = some t := by
  induction h with
  | nil => exact hy
  | cons a _ ih => exact ih (accepts_kept a hy)

/-- **C104.** The types of the identifiers stay as they are declared.
Missing from C104: other programs (`c104_narrowed`, `c104_widened`). -/
theorem c104_kept_partial {l : List Stmt} (hl : ∀ x ∈ l, Straight x) {s s' : St} (hv : s.Valid) (he : s.err = false)
    (h : program l s = .ok s') {x : String} {t : Ty} (hx : s.ctx x = some t) : s'.ctx x = some t := by
  rcases program_straight hl hv he with ⟨s2, h1, _, _, h4⟩ | ⟨_, h2⟩
  · cases h.symm.trans h1
    exact acceptsAll_kept h4 hx
  · exact absurd h (h2 s')

/-- **C104.** A register declared has the type of its declaration, if the name is a new one. -/
theorem c104_declared {k : Kind} {n : ℕ} (hn : n < 2 ^ 64) {s : St} (hv : s.Valid) (he : s.err = false) {x : String} (hx : s.ctx x = none) :
    ∃ s', process (.decl (.sized k (some (.int false n))) x none) s = .ok s' ∧ s'.Valid ∧ s'.err = false ∧
      s'.ctx x = some (.sized k n) ∧ ∀ y, y ≠ x → s'.ctx y = s.ctx y := by
  rcases process_straight (x := .decl (.sized k (some (.int false n))) x none) rfl hv he with ⟨s', h1, h2, h3, h4⟩ | ⟨h1, _⟩
  · refine ⟨s', h1, h2, h3, ?_⟩
    generalize hΓ : s'.ctx = Γ at h4
    cases h4 with
    | decl _ _ hr =>
      have : ((n : ℤ) % 2 ^ 64).toNat = n := by omega
      simp only [Decl.resolve, Bool.false_eq_true, false_and, if_false, this] at hr
      cases hr
      exact ⟨by simp [declare, hx], fun y hy => by simp [declare, hy]⟩
  · refine absurd (.decl x ?_ rfl) (h1 _)
    simp [Decl.designatorOk, constTy, Ty.isUint]

/-- No `!` and no `~` but of an identifier or a constant. -/
def Ex.Safe : Ex → Prop
  | .const _ => True
  | .name _ _ => True
  | .un .bnot e => ∃ c x b, e = .const c ∨ e = .name x b
  | .un .lnot e => ∃ c x b, e = .const c ∨ e = .name x b
  | .un _ e => e.Safe
  | .bin _ l r => l.Safe ∧ r.Safe

theorem deref_ne_ub {s : St} {i : ℕ} (h : i < s.heap.length) : ∃ t, deref s (some i) = .ok t :=
  ⟨_, deref_some (List.getElem?_eq_getElem h)⟩

theorem setWidth_ne_ub {s : St} {i : ℕ} (h : i < s.heap.length) (w : ℕ) : setWidth s (some i) w ≠ .ub := by
  obtain ⟨t, ht⟩ := deref_ne_ub h
  rw [setWidth, ht]
  cases t <;> simp [Res.bind, Ty.setWidth]

theorem bind_ne_ub {α β : Type} {a : Res α} {f : α → Res β} (ha : a ≠ .ub) (hf : ∀ x, a = .ok x → f x ≠ .ub) : a.bind f ≠ .ub := by
  cases a with
  | ok x => exact hf x rfl
  | throw => simp [Res.bind]
  | ub => exact absurd rfl ha

/-- **C104.** The check of an expression of known identifiers has no undefined behaviour.
Missing from C104: expressions with `!` or `~` of others (`c104_null`). -/
theorem c104_no_ub_partial (e : Ex) : ∀ {s : St}, s.Valid → Known s e.names → e.Safe → visit e s ≠ .ub := by
  induction e with
  | const c => intro s _ _ _; simp [visit]
  | name x b =>
    intro s hv hk _
    rw [visit]
    cases hl : s.env.lookup x with
    | none => exact absurd hl (hk x (by simp [Ex.names]))
    | some p =>
      simp only
      split_ifs
      · exact bind_ne_ub (setWidth_ne_ub (hv _ _ hl) 1) fun _ _ => by simp
      · simp
  | un o e ih =>
    intro s hv hk hs
    have simple : (∃ c x b, e = .const c ∨ e = .name x b) → visit e s ≠ .ub ∧ ∀ a, visit e s = .ok a → ∃ t, deref a.2 a.1 = .ok t := by
      rintro ⟨c, x, b, rfl | rfl⟩
      · exact ⟨by simp [visit], fun a h => by
          cases h
          exact ⟨constTy c, deref_some (s := (alloc (constTy c) s).2) (i := s.heap.length) (by simp [alloc])⟩⟩
      · refine ⟨ih hv hk trivial, fun a h => ?_⟩
        have hf := frame_visit _ hv h
        have ha : ∃ i, a.1 = some i := by
          rw [visit] at h
          cases hl : s.env.lookup x with
          | none => exact absurd hl (hk x (by simp [Ex.names]))
          | some p =>
            rw [hl] at h
            simp only at h
            split_ifs at h
            · obtain ⟨_, _, h⟩ := bind_eq_ok h; cases h; exact ⟨p, rfl⟩
            · cases h; exact ⟨p, rfl⟩
        obtain ⟨i, hi⟩ := ha
        rw [hi]
        exact deref_ne_ub (hf.ptr i hi).1
    rw [visit]
    cases o <;> simp only
    · obtain ⟨h1, h2⟩ := simple hs
      refine bind_ne_ub h1 fun a ha => ?_
      obtain ⟨t, ht⟩ := h2 a ha
      rw [ht]
      simp [Res.bind]
    · obtain ⟨h1, h2⟩ := simple hs
      refine bind_ne_ub h1 fun a ha => ?_
      obtain ⟨t, ht⟩ := h2 a ha
      rw [ht]
      simp [Res.bind]
    all_goals exact bind_ne_ub (ih hv hk hs) fun a _ => by simp
  | bin o l r ihl ihr =>
    intro s hv hk hs
    rw [visit]
    refine bind_ne_ub (ihl hv (fun x hx => hk x (by simp [Ex.names, hx])) hs.1) fun a ha => ?_
    have hf := frame_visit l hv ha
    refine bind_ne_ub (ihr (hf.valid hv) (fun x hx => by rw [hf.env]; exact hk x (by simp [Ex.names, hx])) hs.2) fun b hb => ?_
    have hg := frame_visit r (hf.valid hv) hb
    split_ifs with hn
    · simp
    · push Not at hn
      obtain ⟨i, hi⟩ := Option.ne_none_iff_exists'.1 hn.1
      obtain ⟨j, hj⟩ := Option.ne_none_iff_exists'.1 hn.2
      have hil : i < b.2.heap.length := lt_of_lt_of_le (hf.ptr i hi).1 hg.len
      have hjl := (hg.ptr j hj).1
      refine bind_ne_ub ?_ fun c hc => ?_
      · rw [hi, hj]
        obtain ⟨t, ht⟩ := deref_ne_ub hil
        obtain ⟨t', ht'⟩ := deref_ne_ub hjl
        rw [operandTy, ht, ht']
        simp only [Res.bind]
        split_ifs
        · simp
        · refine bind_ne_ub (by cases t <;> simp [Ty.width]) fun wl _ => bind_ne_ub (by cases t' <;> simp [Ty.width]) fun wr _ =>
            bind_ne_ub (setWidth_ne_ub hjl _) fun _ _ => by simp
        · refine bind_ne_ub (by cases t <;> simp [Ty.width]) fun wl _ => bind_ne_ub (by cases t' <;> simp [Ty.width]) fun wr _ =>
            bind_ne_ub (setWidth_ne_ub hil _) fun _ _ => by simp
        · simp
        · simp
      · split_ifs with hcn
        · simp
        · obtain ⟨p, hp⟩ := Option.ne_none_iff_exists'.1 hcn
          have hfr := frame_operandTy (n := l.names ++ r.names) (hf.trans hg) (l := a.1) (r := b.1) (fun i hi => by
            have := hf.ptr i hi
            exact ⟨lt_of_lt_of_le this.1 hg.len, this.2.imp id fun ⟨x, hx, e⟩ => ⟨x, List.mem_append_left _ hx, e⟩⟩) (hf.trans hg).ptr rfl hc
          obtain ⟨t, ht⟩ := deref_ne_ub (hfr.ptr p hp).1
          rw [hp]
          cases o <;> simp [resultTy, ht, Res.bind]

/-! ### What goes wrong -/

theorem start_valid : start.Valid := by
  intro x p h
  simp only [start, List.map_cons, List.map_nil, List.lookup_cons] at h
  repeat' split at h
  all_goals first | (cases h; decide) | cases h

def lit (n : ℤ) : Ex := .const (.int false n)

/-- `qubit[n] q; bit[n] c;` -/
def registers (q c : String) (n : ℤ) : List Stmt :=
  [.decl (.sized .qubit (some (.int false n))) q none, .decl (.sized .bit (some (.int false n))) c none]

/-- `if (e) {}` -/
def cond (e : Ex) : Stmt := .ite e [] []

/-- `c = measure q;` -/
def measureAll (q c : String) : Stmt := .assign c [] (.measure (.ref q []))

def accepted (l : List Stmt) : Bool := match program l start with
  | .ok _ => true
  | _ => false

def rejected (l : List Stmt) : Bool := match program l start with
  | .throw => true
  | _ => false

def crashes (l : List Stmt) : Bool := match program l start with
  | .ub => true
  | _ => false

/-- **C104 fails.** `if (c[0])` makes `c` a register of one bit, and a measurement of two qubits into it is rejected afterwards. -/
theorem c104_narrowed : accepted (registers "q" "c" 2 ++ [cond (.name "c" true)]) = true ∧
    accepted (registers "q" "c" 2 ++ [measureAll "q" "c"]) = true ∧
    rejected (registers "q" "c" 2 ++ [cond (.name "c" true), measureAll "q" "c"]) = true := by
  refine ⟨?_, ?_, ?_⟩ <;> decide +kernel

/-- **C104 fails.** `if (c == 1)` makes `c` a register of 32 bits, and `if (c)` is rejected afterwards. -/
theorem c104_widened : accepted (registers "q" "c" 1 ++ [cond (.bin .eq (.name "c" false) (lit 1))]) = true ∧
    accepted (registers "q" "c" 1 ++ [cond (.name "c" false)]) = true ∧
    rejected (registers "q" "c" 1 ++ [cond (.bin .eq (.name "c" false) (lit 1)), cond (.name "c" false)]) = true := by
  refine ⟨?_, ?_, ?_⟩ <;> decide +kernel

/-- **C104 fails.** A register of two bits as condition is rejected, but not after `if (c[0])`. -/
theorem c104_not_rejected : rejected (registers "q" "c" 2 ++ [cond (.name "c" false)]) = true ∧
    accepted (registers "q" "c" 2 ++ [cond (.name "c" true), cond (.name "c" false)]) = true := by
  refine ⟨?_, ?_⟩ <;> decide +kernel

/-- **C104 fails.** Measuring an unknown register, an unknown identifier with an index, `!` of an unknown identifier, and `!` of an
expression with an error, all read through a null pointer. -/
theorem c104_null : crashes (registers "q" "c" 2 ++ [measureAll "r" "c"]) = true ∧
    crashes (registers "q" "c" 2 ++ [cond (.name "x" true)]) = true ∧
    crashes (registers "q" "c" 2 ++ [cond (.un .lnot (.name "x" false))]) = true ∧
    crashes (registers "q" "c" 2 ++ [cond (.un .lnot (.bin .lt (.const .bool) (.const .bool)))]) = true := by
  refine ⟨?_, ?_, ?_, ?_⟩ <;> decide +kernel

/-- **C104 fails.** The type of a register named as a builtin is the one of the builtin. -/
theorem c104_builtins : accepted (registers "p" "c" 2 ++ [measureAll "p" "c"]) = true ∧
    rejected (registers "pi" "c" 2 ++ [measureAll "pi" "c"]) = true ∧ rejected (registers "q" "tau" 2 ++ [measureAll "q" "tau"]) = true := by
  refine ⟨?_, ?_, ?_⟩ <;> decide +kernel

/-- The state after the declarations of two registers of two. -/
def two : St := ⟨[.sized .float 64, .sized .qubit 2, .sized .bit 2], ("c", 2) :: ("q", 1) :: start.env, false⟩

example : program (registers "q" "c" 2) start = .ok two := by rfl

/-- `c + c[0]` -/
def sum : Ex := .bin .add (.name "c" false) (.name "c" true)

/-- **C104 fails.** An identifier twice: the index of the one is one of the other. -/
theorem c104_twice : HasTy two.ctx sum (.sized .bit 2) ∧ ∃ a, visit sum two = .ok a ∧ a.1 = none ∧ a.2.err = true := by
  refine ⟨.bin (.name (t := .sized .bit 2) rfl) (.elem (k := .bit) (w := 2) rfl) (.inr ⟨by simp [Ty.toBool], .bit, 2, .bit, 1, rfl, rfl, rfl, rfl, rfl⟩) ⟨rfl, rfl⟩, ?_⟩
  exact ⟨_, rfl, rfl, rfl⟩

section examples

/-- `c[0] == 1` and `c < 2` are conditions, `c` and `q[0]` are not. -/
example : (∃ s', process (cond (.bin .lt (.name "c" false) (lit 2))) two = .ok s') ∧ ¬ ∃ s', process (cond (.name "q" true)) two = .ok s' := by
  have hv : two.Valid := by
    intro x p h
    simp only [two, start, List.map_cons, List.map_nil, List.lookup_cons] at h
    repeat' split at h
    all_goals first | (cases h; decide) | cases h
  refine ⟨(c104_condition_partial _ hv rfl (by simp [Separate, Ex.names, lit]) (by simp [Known, Ex.names, lit, two, List.lookup])).2 ?_, fun h => ?_⟩
  · refine ⟨.bool, .bin (u := .sized .bit 32) (.name (t := .sized .bit 2) rfl) (.const _) (.inr ⟨by simp [Ty.toBool], .bit, 2, .uint, 32, rfl, rfl, rfl, rfl, rfl⟩) ⟨rfl, rfl⟩, rfl⟩
  · obtain ⟨t, ht, hb⟩ := (c104_condition_partial _ hv rfl (by simp [Separate, Ex.names]) (by simp [Known, Ex.names, two, List.lookup])).1 h
    cases ht with
    | elem h =>
      cases h
      simp [Ty.toBool] at hb

/-- A program. -/
def demo : List Stmt := registers "q" "c" 3 ++
  [.gate ["theta"] ["a", "b"] [.call [.const .float], .barrier [.ref "a" [], .ref "b" []]], .quantum (.reset (.ref "q" [lit 1])),
   .assign "c" [lit 2] (.measure (.ref "q" [lit 0])), measureAll "q" "c"]

example : accepted demo = true ∧ rejected (demo ++ [.quantum (.reset (.ref "a" []))]) = true ∧
    rejected (demo ++ [.quantum (.reset (.ref "q" [.const (.int true 1)]))]) = true ∧
    rejected (demo ++ [.decl (.sized .bit (some (.int false 2))) "d" none, measureAll "q" "d"]) = true := by
  refine ⟨?_, ?_, ?_, ?_⟩ <;> decide +kernel

/-- The type found for an expression, if there is no error. -/
def typeOf (s : St) (e : Ex) : Option Ty := match visit e s with
  | .ok (some i, s') => if s'.err then none else s'.heap[i]?
  | _ => none

/-- One identifier of each type. -/
def every : List Stmt :=
  [.decl (.sized .qubit (some (.int false 3))) "q" none, .decl (.sized .bit (some (.int false 3))) "b" none,
   .decl (.sized .int (some (.int false 8))) "i" none, .decl (.sized .uint (some (.int false 8))) "u" none,
   .decl (.sized .float (some (.int false 64))) "f" none, .decl (.sized .angle (some (.int false 64))) "a" none, .decl .bool "t" none,
   .decl .duration "d" none, .decl (.sized .bit none) "e" none]

/-- The type of an expression after these. -/
def after (e : Ex) : Option Ty := match program every start with
  | .ok s => typeOf s e
  | _ => none

def v (x : String) : Ex := .name x false

/-- The types of the constants. -/
example : [after (lit 4294967295), after (lit 4294967296), after (lit 2147483648), after (.const (.int true 2147483647)),
      after (.const (.int true 2147483648)), after (.const (.int true (-5))), after (.const .float), after (.const .bool)] =
    [some (.sized .uint 32), some (.sized .uint 64), some (.sized .uint 32), some (.sized .int 32), some (.sized .int 64),
      some (.sized .int 32), some (.sized .float 64), some .bool] := by decide +kernel

/-- Arithmetic on two identifiers. -/
example : [("b", "i"), ("i", "b"), ("u", "i"), ("i", "u"), ("i", "f"), ("f", "i"), ("u", "f"), ("b", "f"), ("q", "i"), ("i", "q"), ("a", "i"), ("f", "a"),
      ("t", "e"), ("t", "i"), ("d", "d"), ("i", "d"), ("e", "b"), ("pi", "i"), ("i", "τ")].map (fun p => after (.bin .add (v p.1) (v p.2))) =
    [some (.sized .bit 8), some (.sized .int 8), some (.sized .int 8), some (.sized .int 8), some (.sized .float 64), some (.sized .float 64),
      some (.sized .float 64), some (.sized .float 64), none, none, none, none, none, none, none, none, some (.sized .bit 3),
      some (.sized .float 64), some (.sized .float 64)] := by decide +kernel

/-- Comparison, equality, logic and bits. -/
example : [(Bin.lt, "i", "u"), (.lt, "t", "e"), (.ge, "i", "t"), (.eq, "t", "e"), (.ne, "b", "u"), (.eq, "q", "i"), (.land, "t", "e"), (.land, "e", "t"),
      (.lor, "b", "e"), (.land, "i", "u"), (.band, "b", "u"), (.bor, "t", "e"), (.shl, "u", "u")].map (fun p => after (.bin p.1 (v p.2.1) (v p.2.2))) =
    [some .bool, none, none, some .bool, some .bool, none, some .bool, some .bool, none, none, some (.sized .bit 8), none, some (.sized .uint 8)] := by
  decide +kernel

/-- The operations with one operand, and elements. -/
example : [after (.un .bnot (v "i")), after (.un .bnot (v "q")), after (.un .bnot (v "t")), after (.un .lnot (v "e")), after (.un .lnot (v "t")),
      after (.un .lnot (v "b")), after (.un .lnot (v "d")), after (.un .neg (v "f")), after (.un .durationOf (v "i")), after (.un .fn (v "i")),
      after (.name "b" true), after (.name "i" true), after (.name "t" true), after (.un .lnot (.name "b" true)), after (v "missing"),
      after (.bin .add (v "missing") (v "i"))] =
    [some (.sized .int 8), none, none, some (.sized .bit 1), some .bool, none, none, some (.sized .float 64), some .duration, some (.sized .float 64),
      some (.sized .bit 1), some (.sized .int 1), none, some (.sized .bit 1), none, none] := by decide +kernel

/-- Whether a declaration of this type can have the identifier as value. -/
def takes (d : Decl) (x : String) : Bool := accepted (every ++ [.decl d "new" (some (.expr (v x)))])

/-- Which values fit into which types. -/
example : [takes (.sized .int (some (.int false 8))) "u", takes (.sized .uint (some (.int false 8))) "i", takes (.sized .float (some (.int false 64))) "i",
      takes (.sized .float (some (.int false 4))) "i", takes (.sized .float (some (.int false 64))) "u", takes (.sized .bit (some (.int false 2))) "b",
      takes (.sized .bit (some (.int false 3))) "b", takes (.sized .bit (some (.int false 4))) "b", takes .bool "t", takes .bool "d", takes .bool "e",
      takes (.sized .int none) "t", takes (.sized .int none) "f", takes .duration "d", takes .duration "t"] =
    [true, false, true, false, true, false, true, true, true, false, false, false, false, true, false] := by decide +kernel

/-- The widths without a designator. -/
example : ([Kind.qubit, .bit, .int, .uint, .float, .angle].map fun k => match program [.decl (.sized k none) "x" none] start with
      | .ok s => s.ctx "x"
      | _ => none) =
    [some (.sized .qubit 1), some (.sized .bit 1), some (.sized .int 32), some (.sized .uint 32), some (.sized .float 64), some (.sized .angle 64)] := by
  decide +kernel

/-- Designators have to be unsigned, and both branches of an `if` and all statements of a gate are checked. -/
example : rejected [.decl (.sized .bit (some (.int true 2))) "x" none] = true ∧ rejected [.decl (.sized .bit (some .float)) "x" none] = true ∧
    accepted (registers "q" "c" 1 ++ [.ite (v "c") [measureAll "q" "c"] [measureAll "q" "c"]]) = true ∧
    rejected (registers "q" "c" 1 ++ [.ite (v "c") [.quantum (.reset (.ref "x" []))] []]) = true ∧
    rejected (registers "q" "c" 1 ++ [.ite (v "c") [] [.quantum (.reset (.ref "x" []))]]) = true ∧
    accepted [.gate ["x"] ["a"] [.call [v "x"], .barrier [.ref "a" []]]] = true ∧
    rejected [.gate ["x"] ["a"] [.call [v "x"], .barrier [.ref "a" [], .ref "b" []]]] = true ∧
    rejected [.gate ["x"] ["a"] [.barrier [.ref "a" []], .call [v "y"]]] = true ∧
    rejected [.gate ["x"] ["a"] [], .quantum (.barrier [.ref "a" []])] = true := by
  refine ⟨?_, ?_, ?_, ?_, ?_, ?_, ?_, ?_, ?_⟩ <;> decide +kernel

end examples

end MQT.QASM.TypeCheck
