/-
Properties of the OpenQASM front end: constant evaluation (C60), nested environments (C61) and exporting
measurements, resets and barriers (C63).
-/
import Verif.QASM.ConstEval
import Verif.QASM.Dump
import Mathlib.Data.Rat.Defs

set_option autoImplicit false

namespace MQT.QASM

variable {F : Type}

/-! ### C60 -/

/-- Exact rationals for `double`; the functions that are not rational are left out. -/
def ratOps : FloatOps ℚ where
  pow a _ := a
  add := (· + ·)
  sub := (· - ·)
  mul := (· * ·)
  div := (· / ·)
  fmod a _ := a
  lt a b := decide (a < b)
  le a b := decide (a ≤ b)
  eq a b := decide (a = b)
  neg := (- ·)
  fn _ a := a
  ofInt z := z

/-- **C60.** For 64-bit operands and every operator: the undefined cases are exactly the ones listed in `Undefined`,
the errors exactly those in `Error`, and otherwise the result is the exact one modulo `2^64`.
Missing from C60: the cases in `Undefined` crash (`c60_crash`), and a negative exponent gives 1
(`c60_negative_exponent`). -/
theorem c60_int_partial (op : BinOp) (l r : BitVec 64) (s : Bool) :
    (evalInt (F := F) op l r 64 s = .ub ↔ Undefined op (num s l) (num s r) s) ∧
    (evalInt (F := F) op l r 64 s = .throw ↔ Error op (num s l) (num s r) s) ∧
    (¬ Undefined op (num s l) (num s r) s → ¬ Error op (num s l) (num s r) s → ¬ (op = .power ∧ num s r < 0) →
      ∃ x, meant op (num s l) (num s r) = some x ∧ evalInt (F := F) op l r 64 s = .ok (represent s x)) := by
  have hok : ¬ Undefined op (num s l) (num s r) s → ¬ Error op (num s l) (num s r) s →
      ∃ v, evalInt (F := F) op l r 64 s = .ok v := by
    intro hu he
    cases hm : meant op (num s l) (num s r) with
    | some x => exact ⟨_, evalInt_ok hu he hm⟩
    | none =>
      unfold evalInt
      rw [(((intSwitch_eq op l r s).2.2 hu he).2 hm).2]
      simp [Res.bind, castToWidth_64]
  have hex : Undefined op (num s l) (num s r) s → ¬ Error op (num s l) (num s r) s := by
    intro hu he
    have h := evalInt_ub (F := F) (w := 64) hu
    rw [evalInt_throw he] at h
    cases h
  refine ⟨⟨fun h => ?_, evalInt_ub⟩, ⟨fun h => ?_, evalInt_throw⟩, fun hu he hp => ?_⟩
  · by_contra hu
    by_cases he : Error op (num s l) (num s r) s
    · rw [evalInt_throw he] at h; cases h
    · obtain ⟨v, hv⟩ := hok hu he
      rw [hv] at h; cases h
  · by_contra he
    by_cases hu : Undefined op (num s l) (num s r) s
    · rw [evalInt_ub hu] at h; cases h
    · obtain ⟨v, hv⟩ := hok hu he
      rw [hv] at h; cases h
  · cases hm : meant op (num s l) (num s r) with
    | none => exact absurd (meant_none hm hu he) hp
    | some x => exact ⟨x, rfl, evalInt_ok hu he hm⟩

example : evalInt (F := ℚ) .subtract 3 5 64 false = .ok (.uint (BitVec.ofNat 64 (2 ^ 64 - 2)) 64) := by decide +kernel
example : evalInt (F := ℚ) .divide (BitVec.ofInt 64 (-7)) 2 64 true = .ok (.int (BitVec.ofInt 64 (-3)) 64) := by decide +kernel
example : evalInt (F := ℚ) .power 3 39 64 true = .ok (.int (BitVec.ofInt 64 (3 ^ 39)) 64) := by
  refine (evalInt_ok (s := true) (x := .inl (3 ^ 39)) ?_ ?_ ?_)
  · simp [Undefined, num]
  · simp [Error, num, maxNum]
  · simp [meant, num]

/-- **C60.** Signed integers of 8, 16, 32 or 64 bits wrap around to their width. -/
theorem c60_width (op : BinOp) (l r : BitVec 64) {w : ℕ} (hw : w = 8 ∨ w = 16 ∨ w = 32 ∨ w = 64) {z : ℤ}
    (hm : meant op l.toInt r.toInt = some (.inl z)) (hu : ¬ Undefined op l.toInt r.toInt true) (he : ¬ Error op l.toInt r.toInt true) :
    ∃ v, evalInt (F := F) op l r w true = .ok (.int v w) ∧ v.toInt = z.bmod (2 ^ w) := by
  obtain ⟨v, h, hv⟩ := castToWidth_eq z hw
  refine ⟨v, ?_, hv⟩
  unfold evalInt
  rw [((intSwitch_eq op l r true).2.2 hu he).1 _ hm]
  simp only [Sum.map_inl, Res.bind, h, if_true]

example : evalInt (F := ℚ) .add 100 100 8 true = .ok (.int (BitVec.ofInt 64 (-56)) 8) := by decide +kernel

/-- An integer value: signedness, bits and width. -/
def Value.integer : Value F → Option (Bool × BitVec 64 × ℕ)
  | .int v w => some (true, v, w)
  | .uint v w => some (false, v, w)
  | _ => none

/-- **C60.** Integers of any two widths: the result is signed as soon as one operand is, has the larger of the two
widths, and is the exact result modulo that width; a width other than 8, 16, 32 and 64 is an error. -/
theorem c60_mixed_width (f : FloatOps F) (op : BinOp) (a b : Value F) {sa sb : Bool} {l r : BitVec 64} {wl wr : ℕ}
    (ha : a.integer = some (sa, l, wl)) (hb : b.integer = some (sb, r, wr)) {z : ℤ}
    (hm : meant op (num (sa || sb) l) (num (sa || sb) r) = some (.inl z))
    (hu : ¬ Undefined op (num (sa || sb) l) (num (sa || sb) r) (sa || sb))
    (he : ¬ Error op (num (sa || sb) l) (num (sa || sb) r) (sa || sb)) :
    (max wl wr ∈ [8, 16, 32, 64] → ∃ v, v.toInt = z.bmod (2 ^ max wl wr) ∧
      evalBinary f op a b = .ok (if sa || sb then .int v (max wl wr) else .uint v (max wl wr))) ∧
    (max wl wr ∉ [8, 16, 32, 64] → evalBinary f op a b = .throw) := by
  have hb' : evalBinary f op a b = evalInt op l r (max wl wr) (sa || sb) := by
    cases a <;> simp only [Value.integer, Option.some.injEq, Prod.mk.injEq, reduceCtorEq] at ha <;>
      cases b <;> simp only [Value.integer, Option.some.injEq, Prod.mk.injEq, reduceCtorEq] at hb <;>
      obtain ⟨rfl, rfl, rfl⟩ := ha <;> obtain ⟨rfl, rfl, rfl⟩ := hb <;> rfl
  rw [hb']
  unfold evalInt
  rw [((intSwitch_eq op l r (sa || sb)).2.2 hu he).1 _ hm]
  refine ⟨fun hw => ?_, fun hw => ?_⟩
  · obtain ⟨v, h, hv⟩ := castToWidth_eq z (w := max wl wr) (by simpa using hw)
    exact ⟨v, hv, by simp only [Sum.map_inl, Res.bind, h]⟩
  · simp only [Sum.map_inl, Res.bind, castToWidth]
    rw [if_neg (by simpa using hw)]

example : evalBinary ratOps .add (.int 100 8) (.int 100 16) = .ok (.int 200 16) := by decide +kernel
example : evalBinary ratOps .add (.int 100 16) (.uint 100 8) = .ok (.int 200 16) := by decide +kernel

/-- **C60.** Expressions: if a value is computed, it is the meaning of the expression.  Missing from C60: the two
operations with a wrong result (`OddOp`, see `c60_negative_exponent` and `c60_unsigned_float`), and the crashes. -/
theorem c60_expr_partial (f : FloatOps F) (env : Env String (Value F)) (henv : ∀ name v, env.find name = some v → v.Wide)
    (e : Expr F) (v : Value F) (h : evalExpr f env e = .ok (some v)) (ho : ¬ Odd f env e) :
    e.meaning f (fun name => (env.find name).map Value.meaning) = some v.meaning :=
  (evalExpr_meaning f henv e v h ho).1

/-- `(2 + n) * 3 == 15` with `n = 3`. -/
example : evalExpr ratOps [fun k => if k = "n" then some (.uint 3 64) else none]
    (.binary .equal (.binary .multiply (.binary .add (.uint 2) (.ident "n")) (.uint 3)) (.uint 15)) = .ok (some (.bool true)) := by
  decide +kernel

/-- The smallest integer. -/
def minInt : BitVec 64 := BitVec.ofInt 64 (-2 ^ 63)

/-- **C60 fails**: these expressions have undefined behaviour. -/
theorem c60_crash (f : FloatOps F) (env : Env String (Value F)) :
    evalExpr f env (.binary .power (.uint 0) (.uint 1)) = .ub ∧
    evalExpr f env (.binary .divide (.uint 1) (.uint 0)) = .ub ∧
    evalExpr f env (.binary .modulo (.int 1) (.int 0)) = .ub ∧
    evalExpr f env (.binary .divide (.int minInt) (.int (-1))) = .ub ∧
    evalExpr f env (.binary .multiply (.int minInt) (.int 2)) = .ub ∧
    evalExpr f env (.binary .leftShift (.uint 1) (.uint 64)) = .ub ∧
    evalExpr f env (.unary .negate (.int minInt)) = .ub := by
  refine ⟨?_, ?_, ?_, ?_, ?_, ?_, ?_⟩
  · simp only [evalExpr, Res.bind, evalBinary]; rw [evalInt_ub]; simp only [Undefined]; decide +kernel
  · simp only [evalExpr, Res.bind, evalBinary]; rw [evalInt_ub]; simp only [Undefined]; decide +kernel
  · simp only [evalExpr, Res.bind, evalBinary]; rw [evalInt_ub]; simp only [Undefined]; decide +kernel
  · simp only [evalExpr, Res.bind, evalBinary]; rw [evalInt_ub]; simp only [Undefined]; decide +kernel
  · simp only [evalExpr, Res.bind, evalBinary]; rw [evalInt_ub]; simp only [Undefined]; decide +kernel
  · simp only [evalExpr, Res.bind, evalBinary]; rw [evalInt_ub]; simp only [Undefined]; decide +kernel
  · simp only [evalExpr, Res.bind, evalUnary]; rw [if_pos (by decide +kernel)]

/-- **C60 fails**: a signed power with a negative exponent is 1, and one of a negative base is reported as an overflow. -/
theorem c60_negative_exponent (f : FloatOps F) (env : Env String (Value F)) :
    evalExpr f env (.binary .power (.int 2) (.int (-1))) = .ok (some (.int 1 64)) ∧
    Expr.meaning f (fun name => (env.find name).map Value.meaning) (.binary .power (.int 2) (.int (-1))) = none ∧
    evalExpr f env (.binary .power (.int (-2)) (.int 1)) = .throw ∧
    Expr.meaning f (fun name => (env.find name).map Value.meaning) (.binary .power (.int (-2)) (.int 1)) = some (.int (-2)) := by
  refine ⟨?_, ?_, ?_, ?_⟩
  · simp only [evalExpr, Res.bind, evalBinary, evalInt, intSwitch]
    rw [show powerS (BitVec.toInt 2) (BitVec.toInt (-1)) = .ok 1 by decide +kernel]
    simp [castToWidth_64]
  · simp only [Expr.meaning, Option.bind_some, meantBinary]
    rw [show meant .power (BitVec.toInt 2) (BitVec.toInt (-1)) = none by decide +kernel]
    rfl
  · simp only [evalExpr, Res.bind, evalBinary]
    rw [evalInt_throw]
    refine Or.inl ?_
    decide +kernel
  · simp only [Expr.meaning, Option.bind_some, meantBinary]
    rw [show meant .power (BitVec.toInt (-2)) (BitVec.toInt 1) = some (.inl (-2)) by decide +kernel]
    simp only [Option.map_some, wrapS, Option.some.injEq, Meaning.int.injEq]
    decide +kernel

/-- **C60 fails**: an unsigned number of `2^63` or more as left operand of a float is taken as negative. -/
theorem c60_unsigned_float :
    evalExpr ratOps [] (.binary .add (.uint minInt) (.flt 0)) = .ok (some (.flt (-2 ^ 63))) ∧
    Expr.meaning ratOps (fun _ => none) (.binary .add (.uint minInt) (.flt 0)) = some (.flt (2 ^ 63)) ∧
    evalExpr ratOps [] (.binary .add (.flt 0) (.uint minInt)) = .ok (some (.flt (2 ^ 63))) := by
  refine ⟨?_, ?_, ?_⟩ <;> decide +kernel

/-- **C60 fails**: unsigned numbers of fewer than 64 bits are kept sign-extended, which division does not undo: the sum
`100 + 100` of 8-bit numbers, divided by 2, is 228. -/
theorem c60_narrow : ∃ v, evalInt (F := ℚ) .add 100 100 8 false = .ok (.uint v 8) ∧ v.toNat % 2 ^ 8 = 200 ∧
    ∃ w, evalInt (F := ℚ) .divide v 2 8 false = .ok (.uint w 8) ∧ w.toNat % 2 ^ 8 = 228 :=
  ⟨BitVec.ofInt 64 (-56), by decide +kernel, by decide +kernel, BitVec.ofInt 64 (-28), by decide +kernel, by decide +kernel⟩

/-! ### C61 -/

variable {K T : Type} [DecidableEq K]

/-- **C61.** Running the calls for a program with nested blocks from a fresh environment: no undefined behaviour, and
every look-up sees what lexical scoping says. -/
theorem c61_lexical (p : List (Block K T)) :
    ∃ m, Env.run (Block.calls p) Env.new = some ([m], (Block.meaning p ⟨fun _ => none, fun _ => False⟩).2) := by
  obtain ⟨m, h, _⟩ := Block.run_calls p (fun _ => none) [] ⟨fun _ => none, fun _ => False⟩
    ⟨_, _, rfl, fun _ => rfl, by simp⟩
  exact ⟨m, h⟩

/-- **C61.** Leaving a block restores the environment before it, whatever happened in it. -/
theorem c61_leave (p : List (Block K T)) (m : Scope K T) (r : Env K T) :
    ∃ log, Env.run (Block.calls1 (.scope p)) (m :: r) = some (m :: r, log) := by
  have hs : Env.Shows (Env.push (m :: r)) ⟨fun k => Env.find k (Env.push (m :: r)), fun _ => False⟩ :=
    ⟨_, _, rfl, fun _ => rfl, by simp⟩
  obtain ⟨m', h, _⟩ := Block.run_calls p _ _ _ hs
  refine ⟨(Block.meaning p ⟨fun k => Env.find k (Env.push (m :: r)), fun _ => False⟩).2, ?_⟩
  simp only [Block.calls1, List.cons_append, Env.run]
  rw [Env.run_append]
  unfold Env.push
  rw [h]
  simp only [Option.bind_some, Env.run, Env.pop, Option.map_some, List.append_nil]
  rfl

omit [DecidableEq K] in
/-- **C61.** A look-up finds the value of the innermost scope with the name. -/
theorem c61_innermost (k : K) (e : Env K T) (t : T) :
    e.find k = some t ↔ ∃ a m b, e = a ++ m :: b ∧ (∀ m' ∈ a, m' k = none) ∧ m k = some t := by
  induction e with
  | nil => simp [Env.find]
  | cons m e ih =>
    simp only [Env.find]
    cases hm : m k with
    | some x =>
      constructor
      · rintro ⟨⟩
        exact ⟨[], m, e, rfl, by simp, hm⟩
      · rintro ⟨a, m', b, h1, h2, h3⟩
        cases a with
        | nil => cases h1; rw [← hm, h3]
        | cons c a => cases h1; rw [h2 m (by simp)] at hm; cases hm
    | none =>
      rw [ih]
      constructor
      · rintro ⟨a, m', b, rfl, h2, h3⟩
        exact ⟨m :: a, m', b, rfl, by simpa [hm] using h2, h3⟩
      · rintro ⟨a, m', b, h1, h2, h3⟩
        cases a with
        | nil => cases h1; rw [hm] at h3; cases h3
        | cons c a => cases h1; exact ⟨a, m', b, rfl, fun x hx => h2 x (by simp [hx]), h3⟩

/-- `x = 1 { x = 2; use x; { x = 3; x = 4; use x; use y } use x } use x`. -/
example : (Env.run (Block.calls [.declare "x" 1, .scope [.declare "x" 2, .use "x", .scope [.declare "x" 3, .declare "x" 4,
    .use "x", .use "y"], .use "x"], .use "x"]) Env.new).map Prod.snd = some [some 2, some 3, none, some 2, some 1] := by
  decide

/-- Popping more scopes than there are is undefined behaviour, and so is declaring a name in none. -/
example : (Env.run [.pop, .pop] (Env.new : Env String ℕ)) = none ∧
    (Env.run [.pop, .emplace "x" 1] (Env.new : Env String ℕ)) = none := ⟨rfl, rfl⟩

/-! ### C63 -/

/-- **C63.** A reset is read back with the same targets, in either version.  Missing from C63: targets that start and
end like a register but are not the register (`c63_gap`). -/
theorem c63_reset_partial {qregs cregs : List Reg} (hq : WF qregs) (qasm3 : Bool) {ts : List ℕ} (hne : ts ≠ []) (ht : Covered qregs ts)
    (hf : Faithful qregs ts) :
    ∃ l o, dump qregs cregs qasm3 (.reset ts) = .ok l ∧ importAll qregs cregs l = .ok o ∧
      o.flatMap NOp.events = (NOp.reset ts).events := by
  obtain ⟨i, j, hi, hj, mi, mj⟩ := ends hne
  obtain ⟨r, hr, ci⟩ := ht i mi
  obtain ⟨r', hr', cj⟩ := ht j mj
  simp only [dump, hi, hj, isWhole_spec hq hr hr' ci cj, Res.bind, decide_eq_true_eq]
  by_cases hw : r = r' ∧ i = r.start ∧ j = r.last
  · rw [if_pos hw]
    obtain ⟨rfl, rfl, rfl⟩ := hw
    refine ⟨[.reset (.reg r.name)], [.reset ts], ?_, ?_, by simp⟩
    · simp only [regAt_eq hq hr ci]
    · simp only [importAll, importStmt, translate_reg hq hr, Res.bind, ← hf r hr (by have := contains_iff.1 ci; omega) hi hj]
  · rw [if_neg hw]
    exact dumpResets_roundtrip hq cregs ts ht

/-- **C63.** A barrier is read back with the same targets, in either version.  Missing from C63: as for resets. -/
theorem c63_barrier_partial {qregs cregs : List Reg} (hq : WF qregs) (qasm3 : Bool) {ts : List ℕ} (ht : Covered qregs ts)
    (hf : Faithful qregs ts) :
    ∃ l, dump qregs cregs qasm3 (.barrier ts) = .ok l ∧ importAll qregs cregs l = .ok [.barrier ts] := by
  rcases eq_or_ne ts [] with rfl | hne
  · exact ⟨[.barrier []], rfl, rfl⟩
  · obtain ⟨i, j, hi, hj, mi, mj⟩ := ends hne
    obtain ⟨r, hr, ci⟩ := ht i mi
    obtain ⟨r', hr', cj⟩ := ht j mj
    simp only [dump, hi, hj, isWhole_spec hq hr hr' ci cj, Res.bind, decide_eq_true_eq]
    by_cases hw : r = r' ∧ i = r.start ∧ j = r.last
    · rw [if_pos hw]
      obtain ⟨rfl, rfl, rfl⟩ := hw
      refine ⟨[.barrier [.reg r.name]], ?_, ?_⟩
      · simp only [regAt_eq hq hr ci]
      · simp [importAll, importStmt, translateAll, translate_reg hq hr, Res.bind, ← hf r hr (by have := contains_iff.1 ci; omega) hi hj]
    · rw [if_neg hw]
      obtain ⟨l, e, t⟩ := dumpOperands_roundtrip hq ts ht
      exact ⟨[.barrier l], by simp only [e], by simp only [importAll, importStmt, t, Res.bind]⟩

/-- **C63.** A measurement is read back as the same measurements, in OpenQASM 2, and in OpenQASM 3 if it has one target
or is one of a whole register into a whole register.  Missing from C63: other measurements in OpenQASM 3
(`c63_qasm3`), and lists that start and end like a register but are not the register (`c63_gap`). -/
theorem c63_measure_partial {qregs cregs : List Reg} (hq : WF qregs) (hc : WF cregs) (qasm3 : Bool) {ts bs : List ℕ} (hne : ts ≠ [])
    (hl : ts.length = bs.length) (ht : Covered qregs ts) (hb : Covered cregs bs) (hft : Faithful qregs ts) (hfb : Faithful cregs bs)
    (h3 : qasm3 = true → ts.length = 1 ∨
      (∃ r ∈ qregs, ts = List.range' r.start r.size) ∧ ∃ r ∈ cregs, bs = List.range' r.start r.size) :
    ∃ l o, dump qregs cregs qasm3 (.measure ts bs) = .ok l ∧ importAll qregs cregs l = .ok o ∧
      o.flatMap NOp.events = (NOp.measure ts bs).events := by
  have hne' : bs ≠ [] := by rintro rfl; exact hne (List.length_eq_zero_iff.1 hl)
  obtain ⟨i, j, hi, hj, mi, mj⟩ := ends hne
  obtain ⟨i', j', hi', hj', mi', mj'⟩ := ends hne'
  obtain ⟨r, hr, ci⟩ := ht i mi
  obtain ⟨r', hr', cj⟩ := ht j mj
  obtain ⟨s, hs, ci'⟩ := hb i' mi'
  obtain ⟨s', hs', cj'⟩ := hb j' mj'
  have hends : ∀ {regs : List Reg} {x y : Reg} {a b : ℕ} {l : List ℕ}, WF regs → x ∈ regs → y ∈ regs → x.contains a = true →
      y.contains b = true → l.head? = some a → l.getLast? = some b → (∃ z ∈ regs, l = List.range' z.start z.size) →
      x = y ∧ a = x.start ∧ b = x.last := by
    rintro regs x y a b l hwf hx hy ha hb h1 h2 ⟨z, hz, rfl⟩
    have hz0 : z.size ≠ 0 := by
      intro h0
      rw [h0] at h1
      simp at h1
    rw [List.head?_range', if_neg hz0] at h1
    rw [List.getLast?_range', if_neg hz0] at h2
    simp only [Option.some.injEq] at h1 h2
    have za : z.contains a = true := contains_iff.2 (by omega)
    have zb : z.contains b = true := contains_iff.2 (by omega)
    have e1 := find_contains hwf hx ha
    rw [find_contains hwf hz za] at e1
    have e2 := find_contains hwf hy hb
    rw [find_contains hwf hz zb] at e2
    obtain rfl := Option.some.inj e1
    obtain rfl := Option.some.inj e2
    refine ⟨rfl, h1.symm, ?_⟩
    unfold Reg.last
    omega
  have hloop : ¬ ((r = r' ∧ i = r.start ∧ j = r.last) ∧ (s = s' ∧ i' = s.start ∧ j' = s.last)) →
      dumpMeasures qregs cregs qasm3 ts bs = dumpMeasures qregs cregs false ts bs := by
    intro hw
    cases qasm3 with
    | false => rfl
    | true =>
      rcases h3 rfl with h1 | ⟨hr1, hr2⟩
      · obtain ⟨q, rfl⟩ := List.length_eq_one_iff.1 h1
        obtain ⟨b, rfl⟩ := List.length_eq_one_iff.1 (hl ▸ h1)
        rfl
      · exact absurd ⟨hends hq hr hr' ci cj hi hj hr1, hends hc hs hs' ci' cj' hi' hj' hr2⟩ hw
  simp only [dump, hi, hj, hi', hj', isWhole_spec hq hr hr' ci cj, isWhole_spec hc hs hs' ci' cj', Res.bind, decide_eq_true_eq]
  by_cases hw : r = r' ∧ i = r.start ∧ j = r.last
  · rw [if_pos hw]
    by_cases hw' : s = s' ∧ i' = s.start ∧ j' = s.last
    · rw [if_pos hw']
      obtain ⟨rfl, rfl, rfl⟩ := hw
      obtain ⟨rfl, rfl, rfl⟩ := hw'
      refine ⟨[.measure (.reg s.name) (.reg r.name)], [.measure ts bs], ?_, ?_, by simp⟩
      · simp only [regAt_eq hq hr ci, regAt_eq hc hs ci']
      · simp only [importAll, importStmt, translate_reg hq hr, translate_reg hc hs, Res.bind, ← hft r hr (by have := contains_iff.1 ci; omega) hi hj, ← hfb s hs (by have := contains_iff.1 ci'; omega) hi' hj']
        rw [if_neg (by simpa using hl)]
    · rw [if_neg hw', hloop fun h => hw' h.2]
      exact dumpMeasures_roundtrip hq hc ts bs hl ht hb
  · rw [if_neg hw, hloop fun h => hw h.1]
    exact dumpMeasures_roundtrip hq hc ts bs hl ht hb

/-- **C63.** In particular measuring a single qubit, the usual case. -/
theorem c63_single {qregs cregs : List Reg} (hq : WF qregs) (hc : WF cregs) (qasm3 : Bool) {q b : ℕ} (ht : Covered qregs [q])
    (hb : Covered cregs [b]) :
    ∃ l o, dump qregs cregs qasm3 (.measure [q] [b]) = .ok l ∧ importAll qregs cregs l = .ok o ∧
      o.flatMap NOp.events = [.measure q b] := by
  have hf : ∀ {regs : List Reg} {i : ℕ}, Faithful regs [i] := by
    intro regs i r hr h0 h1 h2
    simp only [List.head?_cons, Option.some.injEq] at h1
    simp only [List.getLast?_singleton, Option.some.injEq] at h2
    subst h1
    have hs : r.size = 1 := by unfold Reg.last at h2; omega
    rw [hs]; rfl
  exact c63_measure_partial hq hc qasm3 (by simp) rfl ht hb hf hf (fun _ => Or.inl rfl)

/-- Two quantum and two classical registers, of three and two elements. -/
def demoQ : List Reg := [⟨0, 3, "q"⟩, ⟨3, 2, "p"⟩]
def demoC : List Reg := [⟨0, 3, "c"⟩, ⟨3, 2, "d"⟩]

theorem demoQ_wf : WF demoQ ∧ WF demoC := by
  constructor <;> simp [WF, demoQ, demoC, Reg.contains] <;> omega

/-- A measurement across registers is exported element by element in OpenQASM 2, a whole register by name. -/
example : dump demoQ demoC false (.measure [4, 1] [0, 3]) =
      .ok [.measure (.elem "c" 0) (.elem "p" 1), .measure (.elem "d" 0) (.elem "q" 1)] ∧
    dump demoQ demoC true (.measure [3, 4] [3, 4]) = .ok [.measure (.reg "d") (.reg "p")] ∧
    dump demoQ demoC true (.barrier [3, 4, 0]) = .ok [.barrier [.elem "p" 0, .elem "p" 1, .elem "q" 0]] := by decide

/-- The lists of the first one are covered and faithful. -/
example : Covered demoQ [4, 1] ∧ Faithful demoQ [4, 1] ∧ Covered demoC [0, 3] ∧ Faithful demoC [0, 3] := by
  refine ⟨?_, ?_, ?_, ?_⟩ <;> simp [Covered, Faithful, demoQ, demoC, Reg.contains, Reg.last]

/-- **C63 fails.** In OpenQASM 3 the bit is the first one for every target: measuring qubits 0, 1 into bits 0, 1 is read
back as measuring both into bit 0. -/
theorem c63_qasm3 : ∃ l o, dump demoQ demoC true (.measure [0, 1] [0, 1]) = .ok l ∧ importAll demoQ demoC l = .ok o ∧
    o.flatMap NOp.events = [.measure 0 0, .measure 1 0] ∧ (NOp.measure [0, 1] [0, 1]).events = [.measure 0 0, .measure 1 1] :=
  ⟨_, _, rfl, rfl, rfl, rfl⟩

/-- **C63 fails.** Only the ends of the list are compared with the register: resetting (or fencing) qubits 0 and 2 is read
back as resetting 0, 1 and 2; a measurement can pair qubits and bits differently, or not be readable at all. -/
theorem c63_gap :
    (∃ l, dump demoQ demoC false (.reset [0, 2]) = .ok l ∧ importAll demoQ demoC l = .ok [.reset [0, 1, 2]]) ∧
    (∃ l, dump demoQ demoC false (.barrier [0, 2]) = .ok l ∧ importAll demoQ demoC l = .ok [.barrier [0, 1, 2]]) ∧
    (∃ l, dump [⟨0, 4, "q"⟩] [⟨0, 4, "c"⟩] false (.measure [0, 1, 2, 3] [0, 2, 1, 3]) = .ok l ∧
      importAll [⟨0, 4, "q"⟩] [⟨0, 4, "c"⟩] l = .ok [.measure [0, 1, 2, 3] [0, 1, 2, 3]]) ∧
    (∃ l, dump demoQ demoC false (.measure [0, 2] [3, 4]) = .ok l ∧ importAll demoQ demoC l = .throw) :=
  ⟨⟨_, rfl, rfl⟩, ⟨_, rfl, rfl⟩, ⟨_, rfl, rfl⟩, ⟨_, rfl, rfl⟩⟩

/-- **C63 fails.** Exporting a measurement or reset of no qubits is undefined behaviour (`front()` of an empty vector). -/
theorem c63_empty (qregs cregs : List Reg) (qasm3 : Bool) (bs : List ℕ) :
    dump qregs cregs qasm3 (.measure [] bs) = .ub ∧ dump qregs cregs qasm3 (.reset []) = .ub := ⟨rfl, rfl⟩

end MQT.QASM
