/-
Symbolic expressions (`include/mqt-core/ir/operations/Expression.hpp`): sums of real multiples of variables and
a constant.

A `Variable` is its id (Expression.hpp 52-105).  Coefficients are `double`, here exact reals.  The constant is
`double` for `Symbolic` and `PiRational` for the phases of ZX diagrams (`PiExpression`); the operations the
template uses on it are the class `Const`.
-/
import Mathlib.Data.List.Sort
import Mathlib.Data.List.TakeWhile
import Verif.ZX.PiRational

set_option autoImplicit false

noncomputable section

open Classical

namespace MQT.Sym

/-- `TOLERANCE` (Expression.hpp 32). -/
def tol : ℝ := 1 / 10 ^ 9

/-- Expression.hpp 135-232. -/
structure Term where
  var : ℕ
  coeff : ℝ

/-- The operations on the type `U` of the constant. -/
class Const (U : Type) where
  zero : U
  add : U → U → U
  neg : U → U
  toReal : U → ℝ
  ofReal : ℝ → Res U

instance : Const ℝ := ⟨0, (· + ·), (- ·), id, .ok⟩

/-- Conversion to `double` is `toDouble` (Rational.cpp 106): in radians. -/
def piToReal (a : ZX.PiRational) : ℝ := a.frac * Real.pi

instance : Const ZX.PiRational := ⟨⟨0⟩, ZX.PiRational.add, ZX.PiRational.neg, piToReal, ZX.PiRational.ofReal⟩

/-- Expression.hpp 317-668. -/
structure Expression (U : Type) where
  terms : List Term
  const : U

abbrev Symbolic := Expression ℝ
abbrev PiExpression := Expression ZX.PiRational

variable {U : Type} [Const U]

namespace Expression

/-! ### Model -/

/-- `isZero` (Expression.hpp 381-383). -/
def isZero (e : Expression U) : Prop := e.terms = [] ∧ e.const = Const.zero

/-- `std::lower_bound` for the variable `v`: the position of the first term whose variable is not below `v`;
undefined when the terms are not partitioned by that test. -/
def lowerBound (ts : List Term) (v : ℕ) : Res ℕ :=
  let i := (ts.takeWhile fun t => t.var < v).length
  if ∀ t ∈ ts.drop i, ¬ t.var < v then .ok i else .ub

/-- One turn of the loop of `operator+=` (Expression.hpp 411-430). -/
def addTerm (ts : List Term) (t : Term) : Res (List Term) :=
  match lowerBound ts t.var with
  | .ok i =>
    match ts[i]? with
    | some p =>
      if p.var = t.var then
        if |p.coeff + t.coeff| < tol then .ok (ts.eraseIdx i)
        else .ok (ts.set i ⟨p.var, p.coeff + t.coeff⟩)
      else .ok (ts.insertIdx i t)
    | none => .ok (ts.insertIdx i t)
  | .throw => .throw
  | .ub => .ub

def addTerms (ts : List Term) : List Term → Res (List Term)
  | [] => .ok ts
  | t :: r =>
    match addTerm ts t with
    | .ok ts' => addTerms ts' r
    | .throw => .throw
    | .ub => .ub

/-- `operator+=` (Expression.hpp 400-434) with an operand that is another object. -/
def add (a b : Expression U) : Res (Expression U) :=
  if a.isZero then .ok b
  else if b.isZero then .ok a
  else
    match addTerms a.terms b.terms with
    | .ok ts => .ok ⟨ts, Const.add a.const b.const⟩
    | .throw => .throw
    | .ub => .ub

/-- `a += a`: erasing a term invalidates the iterator of the loop. -/
def addSelf (a : Expression U) : Res (Expression U) :=
  if a.isZero then .ok a
  else if ∃ t ∈ a.terms, |t.coeff + t.coeff| < tol then .ub
  else .ok ⟨a.terms.map fun t => ⟨t.var, t.coeff + t.coeff⟩, Const.add a.const a.const⟩

/-- `operator-()` (Expression.hpp 563-571). -/
def neg (a : Expression U) : Expression U := ⟨a.terms.map fun t => ⟨t.var, -t.coeff⟩, Const.neg a.const⟩

/-- `operator-=` (Expression.hpp 464-466). -/
def sub (a b : Expression U) : Res (Expression U) := add a (neg b)

/-- `operator*=(const T&)` (Expression.hpp 493-502). -/
def mul (a : Expression U) (r : ℝ) : Res (Expression U) :=
  if |r| < tol then .ok ⟨[], Const.zero⟩
  else
    match Const.ofReal (U := U) (Const.toReal a.const * r) with
    | .ok c => .ok ⟨a.terms.map fun t => ⟨t.var, t.coeff * r⟩, c⟩
    | .throw => .throw
    | .ub => .ub

/-- `operator/=(const T&)` (Expression.hpp 526-533). -/
def div (a : Expression U) (r : ℝ) : Res (Expression U) :=
  if |r| < tol then .throw
  else
    match Const.ofReal (U := U) (Const.toReal a.const / r) with
    | .ok c => .ok ⟨a.terms.map fun t => ⟨t.var, t.coeff / r⟩, c⟩
    | .throw => .throw
    | .ub => .ub

/-- `operator/=(int64_t)` (Expression.hpp 546-554). -/
def divInt (a : Expression U) (k : ℤ) : Res (Expression U) :=
  if k = 0 then .throw
  else
    match Const.ofReal (U := U) (Const.toReal a.const / k) with
    | .ok c => .ok ⟨a.terms.map fun t => ⟨t.var, t.coeff / k⟩, c⟩
    | .throw => .throw
    | .ub => .ub

/-- `operator*=(const U&)` (Expression.hpp 505-515), which exists when `U` is not `T`; here for phases. -/
def mulPi (a : PiExpression) (r : ZX.PiRational) : PiExpression :=
  if |piToReal r| < tol then ⟨[], ⟨0⟩⟩
  else ⟨a.terms.map fun t => ⟨t.var, t.coeff * piToReal r⟩, a.const.mul r⟩

/-- `aggregateEqualTerms` (Expression.hpp 651-664), after sorting: add up runs of the same variable, drop what is close to zero. -/
def aggregate : List Term → List Term
  | [] => []
  | [t] => if |t.coeff| < tol then [] else [t]
  | t :: u :: r =>
    if t.var = u.var then aggregate (⟨t.var, t.coeff + u.coeff⟩ :: r)
    else if |t.coeff| < tol then aggregate (u :: r) else t :: aggregate (u :: r)
termination_by l => l.length

/-- The constructor from terms (Expression.hpp 329-334): sort (644-649), then aggregate.  The order of terms of
the same variable after `std::sort` does not matter for the sum. -/
def ofTerms (ts : List Term) : Expression U :=
  ⟨aggregate (ts.insertionSort fun t u => t.var ≤ u.var), Const.zero⟩

/-- The constructor from a constant (Expression.hpp 367). -/
def ofConst (c : U) : Expression U := ⟨[], c⟩

/-- `Expression += Term` (Expression.hpp 441-443). -/
def plusTerm (a : Expression U) (t : Term) : Res (Expression U) := add a (ofTerms [t])

/-- `Expression += U` (Expression.hpp 450-453). -/
def plusConst (a : Expression U) (c : U) : Expression U := ⟨a.terms, Const.add a.const c⟩

/-- `Term - Expression` (Expression.hpp 722-725): `rhs -= lhs; return rhs`, where `-=` adds the negated term
(477). -/
def termMinus (t : Term) (a : Expression U) : Res (Expression U) := plusTerm a ⟨t.var, -t.coeff⟩

/-- `U - Expression` (Expression.hpp 727-730), likewise (484). -/
def constMinus (c : U) (a : Expression U) : Expression U := plusConst a (Const.neg c)

/-- `T + Expression` (Expression.hpp 705-709): `rhs += rhs; return rhs`. -/
def scalarPlus (_ : ℝ) (a : Expression U) : Res (Expression U) := addSelf a

/-- `evaluate` (Expression.hpp 632-638): an unassigned variable throws (Expression.hpp 221-227). -/
def evaluate (asg : ℕ → Option ℝ) (a : Expression U) : Res ℝ :=
  a.terms.foldl (fun acc t =>
    match acc with
    | .ok s => match asg t.var with
      | some x => .ok (x * t.coeff + s)
      | none => .throw
    | .throw => .throw
    | .ub => .ub) (.ok (Const.toReal a.const))

/-- `operator==` (Expression.hpp 790-803).  The comparison of the constants is exact. -/
def eq (a b : Expression U) : Prop :=
  a.terms.length = b.terms.length ∧ a.const = b.const ∧
    ∀ (i : ℕ) (x y : Term), a.terms[i]? = some x → b.terms[i]? = some y → |x.coeff - y.coeff| < tol

/-! ### Specification -/

/-- The sum of the terms under an assignment. -/
def termsVal (ρ : ℕ → ℝ) (ts : List Term) : ℝ := (ts.map fun t => t.coeff * ρ t.var).sum

/-- The real number denoted. -/
def val (ρ : ℕ → ℝ) (a : Expression U) : ℝ := termsVal ρ a.terms + Const.toReal a.const

/-- One term per variable, in ascending order. -/
def Sorted (ts : List Term) : Prop := ts.Pairwise fun t u => t.var < u.var

def WF (a : Expression U) : Prop := Sorted a.terms

/-- How much dropping a term may change the value. -/
def slack (ρ : ℕ → ℝ) (ts : List Term) : ℝ := (ts.map fun t => tol * |ρ t.var|).sum

/-- Every variable is assigned by `asg`, to what `ρ` says. -/
def Assigns (asg : ℕ → Option ℝ) (ρ : ℕ → ℝ) (ts : List Term) : Prop := ∀ t ∈ ts, asg t.var = some (ρ t.var)

end Expression

/-- The constants are real numbers modulo `m` (`m = 0`: exactly). -/
class LawfulConst (U : Type) [Const U] (m : outParam ℝ) : Prop where
  zero : Const.toReal (Const.zero : U) = 0
  add : ∀ a b : U, ∃ k : ℤ, Const.toReal (Const.add a b) = Const.toReal a + Const.toReal b + k * m
  neg : ∀ a : U, ∃ k : ℤ, Const.toReal (Const.neg a) = -Const.toReal a + k * m

instance : LawfulConst ℝ 0 where
  zero := rfl
  add a b := ⟨0, by simp [Const.toReal, Const.add]⟩
  neg a := ⟨0, by simp [Const.toReal, Const.neg]⟩

instance : LawfulConst ZX.PiRational (2 * Real.pi) where
  zero := by simp [Const.toReal, Const.zero, piToReal]
  add a b := by
    obtain ⟨k, hk⟩ := ZX.PiRational.modPi_cong ⟨a.frac + b.frac⟩
    refine ⟨k, ?_⟩
    have : (((ZX.PiRational.modPi ⟨a.frac + b.frac⟩).frac : ℚ) : ℝ) = a.frac + b.frac + 2 * k := by
      have := congrArg (fun q : ℚ => (q : ℝ)) hk
      push_cast at this
      linarith
    show ((ZX.PiRational.modPi ⟨a.frac + b.frac⟩).frac : ℝ) * Real.pi = a.frac * Real.pi + b.frac * Real.pi + _
    rw [this]; ring
  neg a := by
    have e : ((-a.frac.num : ℤ) / (a.frac.den : ℤ) : ℚ) = -a.frac := by
      push_cast
      rw [neg_div, ← ZX.PiRational.frac_eq]
    obtain ⟨k, hk⟩ := ZX.PiRational.modPi_cong ⟨-a.frac⟩
    refine ⟨k, ?_⟩
    have : (((ZX.PiRational.modPi ⟨-a.frac⟩).frac : ℚ) : ℝ) = -a.frac + 2 * k := by
      have := congrArg (fun q : ℚ => (q : ℝ)) hk
      push_cast at this
      linarith
    show ((ZX.PiRational.modPi ⟨_⟩).frac : ℝ) * Real.pi = -(a.frac * Real.pi) + _
    rw [e, this]; ring

namespace Expression

/-! ### Lemmas -/

theorem evaluate_aux (asg : ℕ → Option ℝ) (ρ : ℕ → ℝ) (ts : List Term) (s : ℝ) (h : Assigns asg ρ ts) :
    ts.foldl (fun acc t =>
      match acc with
      | .ok s => match asg t.var with
        | some x => .ok (x * t.coeff + s)
        | none => .throw
      | .throw => .throw
      | .ub => .ub) (Res.ok s) = .ok (termsVal ρ ts + s) := by
  induction ts generalizing s with
  | nil => simp [termsVal]
  | cons t r ih =>
    rw [List.foldl_cons]
    simp only [h t List.mem_cons_self]
    rw [ih _ fun u hu => h u (List.mem_cons_of_mem _ hu)]
    simp only [termsVal, List.map_cons, List.sum_cons]
    congr 1; ring

theorem evaluate_ok {asg : ℕ → Option ℝ} {ρ : ℕ → ℝ} {a : Expression U} (h : Assigns asg ρ a.terms) :
    a.evaluate asg = .ok (a.val ρ) := evaluate_aux asg ρ a.terms _ h

theorem throw_stays (asg : ℕ → Option ℝ) (ts : List Term) :
    ts.foldl (fun acc t =>
      match acc with
      | .ok s => match asg t.var with
        | some x => .ok (x * t.coeff + s)
        | none => .throw
      | .throw => .throw
      | .ub => .ub) (Res.throw : Res ℝ) = .throw := by
  induction ts with
  | nil => rfl
  | cons t r ih => rw [List.foldl_cons]; exact ih

theorem evaluate_throw_aux {asg : ℕ → Option ℝ} (ts : List Term) (s : ℝ) (h : ∃ t ∈ ts, asg t.var = none) :
    ts.foldl (fun acc t =>
      match acc with
      | .ok s => match asg t.var with
        | some x => .ok (x * t.coeff + s)
        | none => .throw
      | .throw => .throw
      | .ub => .ub) (Res.ok s) = .throw := by
  induction ts generalizing s with
  | nil => simp at h
  | cons t r ih =>
    rw [List.foldl_cons]
    cases ht : asg t.var with
    | none => simp only; exact throw_stays asg r
    | some x =>
      simp only
      apply ih
      obtain ⟨u, hu, hn⟩ := h
      rcases List.mem_cons.1 hu with rfl | hu
      · rw [ht] at hn; exact absurd hn (by simp)
      · exact ⟨u, hu, hn⟩

theorem evaluate_throw {asg : ℕ → Option ℝ} {a : Expression U} (h : ∃ t ∈ a.terms, asg t.var = none) :
    a.evaluate asg = .throw := evaluate_throw_aux a.terms _ h

/-- A successful evaluation: all variables assigned, and the value is the denoted number. -/
theorem evaluate_inv {asg : ℕ → Option ℝ} {a : Expression U} {x : ℝ} (h : a.evaluate asg = .ok x) :
    Assigns asg (fun v => (asg v).getD 0) a.terms ∧ x = a.val fun v => (asg v).getD 0 := by
  have hA : Assigns asg (fun v => (asg v).getD 0) a.terms := by
    intro t ht
    cases hv : asg t.var with
    | none => rw [evaluate_throw ⟨t, ht, hv⟩] at h; exact absurd h (by simp)
    | some y => simp [hv]
  refine ⟨hA, ?_⟩
  rw [evaluate_ok hA] at h
  injection h with h
  exact h.symm

/-! Adding one term. -/

theorem split_lt (ts : List Term) (hs : Sorted ts) (v : ℕ) : ∃ A B, ts = A ++ B ∧ (∀ t ∈ A, t.var < v) ∧
    (∀ t ∈ B, v ≤ t.var) ∧ lowerBound ts v = .ok A.length := by
  have h1 : ∀ t ∈ ts.takeWhile (fun t => decide (t.var < v)), t.var < v := by
    intro t ht
    have := List.mem_takeWhile_imp ht
    simpa using this
  have h2 : ∀ t ∈ ts.dropWhile (fun t => decide (t.var < v)), v ≤ t.var := by
    intro t ht
    have hs' : Sorted (ts.dropWhile fun t => decide (t.var < v)) :=
      hs.sublist (List.dropWhile_sublist _)
    cases hd : ts.dropWhile (fun t => decide (t.var < v)) with
    | nil => rw [hd] at ht; simp at ht
    | cons u r =>
      rw [hd] at ht hs'
      have hu : v ≤ u.var := by
        have := List.head_dropWhile_not (fun t : Term => decide (t.var < v)) (l := ts) (by rw [hd]; simp)
        simp only [hd, List.head_cons, decide_eq_false_iff_not] at this
        omega
      rcases List.mem_cons.1 ht with rfl | ht
      · exact hu
      · exact hu.trans (List.rel_of_pairwise_cons hs' ht).le
  have he := List.takeWhile_append_dropWhile (p := fun t : Term => decide (t.var < v)) (l := ts)
  refine ⟨_, _, he.symm, h1, h2, ?_⟩
  unfold lowerBound
  simp only
  rw [if_pos]
  have : ts.drop (ts.takeWhile (fun t => decide (t.var < v))).length = ts.dropWhile fun t => decide (t.var < v) := by
    conv_lhs => rw [← he]
    rw [List.takeWhile_append_dropWhile]
    conv_lhs => arg 2; rw [← he]
    rw [List.drop_left]
  rw [this]
  intro t ht
  have := h2 t ht
  omega

theorem termsVal_append (ρ : ℕ → ℝ) (A B : List Term) : termsVal ρ (A ++ B) = termsVal ρ A + termsVal ρ B := by
  simp [termsVal]

theorem termsVal_cons (ρ : ℕ → ℝ) (t : Term) (B : List Term) :
    termsVal ρ (t :: B) = t.coeff * ρ t.var + termsVal ρ B := by
  simp [termsVal]

theorem addTerm_spec (ts : List Term) (hs : Sorted ts) (t : Term) : ∃ ts', addTerm ts t = .ok ts' ∧ Sorted ts' ∧
    (∀ ρ, |termsVal ρ ts' - (termsVal ρ ts + t.coeff * ρ t.var)| ≤ tol * |ρ t.var|) ∧
    (∀ u ∈ ts', u.var = t.var ∨ ∃ w ∈ ts, w.var = u.var) ∧
    ((∀ p ∈ ts, p.var = t.var → p.coeff + t.coeff = 0 ∨ tol ≤ |p.coeff + t.coeff|) →
      ∀ ρ, termsVal ρ ts' = termsVal ρ ts + t.coeff * ρ t.var) := by
  obtain ⟨A, B, rfl, hA, hB, hl⟩ := split_lt ts hs t.var
  have htol : 0 ≤ tol := by unfold tol; positivity
  have hs' := List.pairwise_append.1 hs
  unfold addTerm
  rw [hl]
  simp only
  have hget : (A ++ B)[A.length]? = B[0]? := by
    rw [List.getElem?_append_right le_rfl, Nat.sub_self]
  rw [hget]
  have hins : (A ++ B).insertIdx A.length t = A ++ t :: B := by
    clear hs hA hl hs' hget
    induction A with
    | nil => simp
    | cons x A ih => simp only [List.cons_append, List.length_cons, List.insertIdx_succ_cons, ih]
  cases B with
  | nil =>
    simp only [List.getElem?_nil]
    rw [hins]
    refine ⟨_, rfl, ?_, ?_, ?_, ?_⟩
    · refine List.pairwise_append.2 ⟨hs'.1, by simp, ?_⟩
      intro a ha b hb
      rw [List.mem_singleton] at hb
      rw [hb]; exact hA a ha
    · intro ρ
      rw [termsVal_append, termsVal_append, termsVal_cons]
      simp only [termsVal, List.map_nil, List.sum_nil]
      rw [show ∀ x y : ℝ, x + (y + 0) - (x + 0 + y) = 0 from fun x y => by ring, abs_zero]
      positivity
    · intro u hu
      rcases List.mem_append.1 hu with h | h
      · exact .inr ⟨u, by simp [h], rfl⟩
      · rw [List.mem_singleton] at h; exact .inl (by rw [h])
    · intro _ ρ
      rw [termsVal_append, termsVal_append, termsVal_cons]
      simp only [termsVal, List.map_nil, List.sum_nil]
      ring
  | cons p B =>
    simp only [List.getElem?_cons_zero]
    have hp := hB p List.mem_cons_self
    have hpB := List.pairwise_cons.1 hs'.2.1
    by_cases hv : p.var = t.var
    · rw [if_pos hv]
      by_cases hc : |p.coeff + t.coeff| < tol
      · rw [if_pos hc]
        have he : (A ++ p :: B).eraseIdx A.length = A ++ B := by
          rw [List.eraseIdx_append_of_length_le le_rfl, Nat.sub_self, List.eraseIdx_cons_zero]
        rw [he]
        refine ⟨_, rfl, ?_, ?_, ?_, ?_⟩
        · exact List.pairwise_append.2 ⟨hs'.1, hpB.2, fun a ha b hb => hs'.2.2 a ha b (List.mem_cons_of_mem _ hb)⟩
        · intro ρ
          rw [termsVal_append, termsVal_append, termsVal_cons, hv]
          rw [show ∀ x y a b r : ℝ, x + y - (x + (a * r + y) + b * r) = -((a + b) * r) from
            fun x y a b r => by ring, abs_neg, abs_mul]
          exact mul_le_mul_of_nonneg_right hc.le (abs_nonneg _)
        · intro u hu
          refine .inr ⟨u, ?_, rfl⟩
          rcases List.mem_append.1 hu with h | h <;> simp [h]
        · intro hex ρ
          rcases hex p (by simp) hv with h | h
          · rw [termsVal_append, termsVal_append, termsVal_cons, hv]
            linear_combination (-ρ t.var) * h
          · exact absurd hc (not_lt.2 h)
      · rw [if_neg hc]
        have he : (A ++ p :: B).set A.length ⟨p.var, p.coeff + t.coeff⟩ =
            A ++ ⟨p.var, p.coeff + t.coeff⟩ :: B := by
          rw [List.set_append_right _ _ le_rfl, Nat.sub_self, List.set_cons_zero]
        rw [he]
        refine ⟨_, rfl, ?_, ?_, ?_, ?_⟩
        · refine List.pairwise_append.2 ⟨hs'.1, List.pairwise_cons.2 ⟨hpB.1, hpB.2⟩, ?_⟩
          intro a ha b hb
          rcases List.mem_cons.1 hb with rfl | hb
          · exact hs'.2.2 a ha p List.mem_cons_self
          · exact hs'.2.2 a ha b (List.mem_cons_of_mem _ hb)
        · intro ρ
          rw [termsVal_append, termsVal_append, termsVal_cons, termsVal_cons, hv]
          simp only
          rw [show ∀ x y a b r : ℝ, x + ((a + b) * r + y) - (x + (a * r + y) + b * r) = 0 from
            fun x y a b r => by ring, abs_zero]
          positivity
        · intro u hu
          rcases List.mem_append.1 hu with h | h
          · exact .inr ⟨u, by simp [h], rfl⟩
          · rcases List.mem_cons.1 h with rfl | h
            · exact .inl hv
            · exact .inr ⟨u, by simp [h], rfl⟩
        · intro _ ρ
          rw [termsVal_append, termsVal_append, termsVal_cons, termsVal_cons, hv]
          simp only
          ring
    · rw [if_neg hv, hins]
      have hlt : t.var < p.var := lt_of_le_of_ne hp (Ne.symm hv)
      refine ⟨_, rfl, ?_, ?_, ?_, ?_⟩
      · refine List.pairwise_append.2 ⟨hs'.1, List.pairwise_cons.2 ⟨?_, hs'.2.1⟩, ?_⟩
        · intro b hb
          rcases List.mem_cons.1 hb with rfl | hb
          · exact hlt
          · exact hlt.trans (hpB.1 b hb)
        · intro a ha b hb
          rcases List.mem_cons.1 hb with rfl | hb
          · exact hA a ha
          · exact hs'.2.2 a ha b hb
      · intro ρ
        rw [termsVal_append, termsVal_append, termsVal_cons]
        rw [show ∀ x y z : ℝ, x + (y + z) - (x + z + y) = 0 from fun x y z => by ring, abs_zero]
        positivity
      · intro u hu
        rcases List.mem_append.1 hu with h | h
        · exact .inr ⟨u, by simp [h], rfl⟩
        · rcases List.mem_cons.1 h with rfl | h
          · exact .inl rfl
          · exact .inr ⟨u, List.mem_append.2 (.inr h), rfl⟩
      · intro _ ρ
        rw [termsVal_append, termsVal_append, termsVal_cons]
        ring

theorem slack_nonneg (ρ : ℕ → ℝ) (ts : List Term) : 0 ≤ slack ρ ts := by
  apply List.sum_nonneg
  intro x hx
  obtain ⟨t, -, rfl⟩ := List.mem_map.1 hx
  have : 0 ≤ tol := by unfold tol; positivity
  positivity

theorem addTerms_spec (ts : List Term) (hs : Sorted ts) (r : List Term) : ∃ ts', addTerms ts r = .ok ts' ∧
    Sorted ts' ∧ (∀ ρ, |termsVal ρ ts' - (termsVal ρ ts + termsVal ρ r)| ≤ slack ρ r) ∧
    (∀ u ∈ ts', ∃ w ∈ ts ++ r, w.var = u.var) := by
  induction r generalizing ts with
  | nil =>
    refine ⟨ts, rfl, hs, fun ρ => by simp [termsVal, slack], fun u hu => ⟨u, by simpa using hu, rfl⟩⟩
  | cons t r ih =>
    obtain ⟨ts1, h1, hs1, hv1, hm1, -⟩ := addTerm_spec ts hs t
    obtain ⟨ts2, h2, hs2, hv2, hm2⟩ := ih ts1 hs1
    refine ⟨ts2, ?_, hs2, ?_, ?_⟩
    · unfold addTerms; rw [h1]; exact h2
    · intro ρ
      have a1 := abs_le.1 (hv1 ρ)
      have a2 := abs_le.1 (hv2 ρ)
      have : slack ρ (t :: r) = tol * |ρ t.var| + slack ρ r := by simp [slack]
      rw [termsVal_cons, this, abs_le]
      constructor <;> linarith [a1.1, a1.2, a2.1, a2.2]
    · intro u hu
      obtain ⟨w, hw, hwu⟩ := hm2 u hu
      rcases List.mem_append.1 hw with h | h
      · rcases hm1 w h with h' | ⟨w', hw', e⟩
        · exact ⟨t, by simp, by rw [← h', hwu]⟩
        · exact ⟨w', by simp [hw'], by rw [e, hwu]⟩
      · exact ⟨w, by simp [h], hwu⟩

/-- No two coefficients of the same variable nearly cancel without cancelling. -/
def NoNearCancel (a b : List Term) : Prop :=
  ∀ p ∈ a, ∀ t ∈ b, p.var = t.var → p.coeff + t.coeff = 0 ∨ tol ≤ |p.coeff + t.coeff|

theorem addTerm_mem {ts ts' : List Term} {t : Term} (hs : Sorted ts) (h : addTerm ts t = .ok ts') :
    ∀ u ∈ ts', u.var ≠ t.var → u ∈ ts := by
  obtain ⟨A, B, rfl, hA, hB, hl⟩ := split_lt ts hs t.var
  unfold addTerm at h
  rw [hl] at h
  simp only at h
  intro u hu hne
  have key : ∀ i, ts' = (A ++ B).insertIdx i t → u ∈ A ++ B := by
    intro i e
    rw [e] at hu
    rcases List.eq_or_mem_of_mem_insertIdx hu with h | h
    · exact absurd (by rw [h]) hne
    · exact h
  split at h
  · rename_i p hp
    split_ifs at h with h1 h2
    · injection h with h
      rw [← h] at hu
      exact List.mem_of_mem_eraseIdx hu
    · injection h with h
      rw [← h] at hu
      rcases List.mem_or_eq_of_mem_set hu with h' | h'
      · exact h'
      · exact absurd (by rw [h']; exact h1) hne
    · injection h with h
      exact key _ h.symm
  · injection h with h
    exact key _ h.symm

theorem addTerms_exact (ts : List Term) (hs : Sorted ts) (r : List Term) (hr : Sorted r) (hn : NoNearCancel ts r)
    {ts' : List Term} (h : addTerms ts r = .ok ts') (ρ : ℕ → ℝ) :
    termsVal ρ ts' = termsVal ρ ts + termsVal ρ r := by
  induction r generalizing ts with
  | nil => unfold addTerms at h; injection h with h; rw [← h]; simp [termsVal]
  | cons t r ih =>
    obtain ⟨ts1, h1, hs1, -, hm1, he1⟩ := addTerm_spec ts hs t
    unfold addTerms at h
    rw [h1] at h
    have hr' := List.pairwise_cons.1 hr
    rw [ih ts1 hs1 hr'.2 ?_ h, he1 (fun p hp hv => hn p hp t (by simp) hv), termsVal_cons]
    · ring
    · intro p hp u hu hv
      have : p ∈ ts := addTerm_mem hs h1 p hp (by rw [hv]; exact (hr'.1 u hu).ne')
      exact hn p this u (List.mem_cons_of_mem _ hu) hv

theorem add_spec {m : ℝ} [LawfulConst U m] (a b : Expression U) (ha : a.WF) (hb : b.WF) : ∃ c, a.add b = .ok c ∧ c.WF ∧
    (∀ u ∈ c.terms, ∃ w ∈ a.terms ++ b.terms, w.var = u.var) ∧
    (∃ k : ℤ, (∀ ρ, |c.val ρ - (a.val ρ + b.val ρ + k * m)| ≤ slack ρ b.terms) ∧
      (NoNearCancel a.terms b.terms → ∀ ρ, c.val ρ = a.val ρ + b.val ρ + k * m)) := by
  unfold add
  split_ifs with h1 h2
  · have e : ∀ ρ, a.val ρ = 0 := fun ρ => by
      unfold val; rw [h1.1, h1.2, LawfulConst.zero]; simp [termsVal]
    refine ⟨b, rfl, hb, fun u hu => ⟨u, by simp [hu], rfl⟩, 0, fun ρ => ?_, fun _ ρ => ?_⟩
    · rw [e]; simp [slack_nonneg]
    · rw [e]; simp
  · have e : ∀ ρ, b.val ρ = 0 := fun ρ => by
      unfold val; rw [h2.1, h2.2, LawfulConst.zero]; simp [termsVal]
    refine ⟨a, rfl, ha, fun u hu => ⟨u, by simp [hu], rfl⟩, 0, fun ρ => ?_, fun _ ρ => ?_⟩
    · rw [e]; simp [slack_nonneg]
    · rw [e]; simp
  · obtain ⟨ts, ht, hs, hv, hm⟩ := addTerms_spec a.terms ha b.terms
    obtain ⟨k, hk⟩ := LawfulConst.add (m := m) a.const b.const
    rw [ht]
    refine ⟨_, rfl, hs, hm, k, fun ρ => ?_, fun hn ρ => ?_⟩
    · unfold val
      simp only
      rw [hk]
      rw [show ∀ x y z p q r : ℝ, x + (p + q + r) - (y + p + (z + q) + r) = x - (y + z) from
        fun x y z p q r => by ring]
      exact hv ρ
    · unfold val
      simp only
      rw [hk, addTerms_exact a.terms ha b.terms hb hn ht]
      ring

/-! Negation and scaling. -/

theorem termsVal_map (ρ : ℕ → ℝ) (ts : List Term) (r : ℝ) :
    termsVal ρ (ts.map fun t => ⟨t.var, t.coeff * r⟩) = termsVal ρ ts * r := by
  induction ts with
  | nil => simp [termsVal]
  | cons t l ih => rw [List.map_cons, termsVal_cons, termsVal_cons, ih]; simp only; ring

theorem termsVal_neg (ρ : ℕ → ℝ) (ts : List Term) :
    termsVal ρ (ts.map fun t => ⟨t.var, -t.coeff⟩) = -termsVal ρ ts := by
  have := termsVal_map ρ ts (-1)
  simp only [mul_neg, mul_one] at this
  exact this

theorem termsVal_div (ρ : ℕ → ℝ) (ts : List Term) (r : ℝ) :
    termsVal ρ (ts.map fun t => ⟨t.var, t.coeff / r⟩) = termsVal ρ ts / r := by
  have := termsVal_map ρ ts r⁻¹
  simp only [← div_eq_mul_inv] at this
  exact this

theorem sorted_map {ts : List Term} (hs : Sorted ts) (f : Term → ℝ) :
    Sorted (ts.map fun t => ⟨t.var, f t⟩) := List.pairwise_map.2 hs

theorem slack_map (ρ : ℕ → ℝ) (ts : List Term) (f : Term → ℝ) :
    slack ρ (ts.map fun t => ⟨t.var, f t⟩) = slack ρ ts := by
  unfold slack; rw [List.map_map]; rfl

theorem neg_spec {m : ℝ} [LawfulConst U m] (a : Expression U) : ∃ k : ℤ, ∀ ρ, a.neg.val ρ = -a.val ρ + k * m := by
  obtain ⟨k, hk⟩ := LawfulConst.neg (m := m) a.const
  refine ⟨k, fun ρ => ?_⟩
  unfold val neg
  simp only
  rw [hk, termsVal_neg]; ring

/-! The constructor from terms. -/

theorem aggregate_spec (ts : List Term) (hs : ts.Pairwise fun t u => t.var ≤ u.var) :
    Sorted (aggregate ts) ∧ (∀ u ∈ aggregate ts, (∃ w ∈ ts, w.var = u.var) ∧ tol ≤ |u.coeff|) ∧
    ∀ ρ, |termsVal ρ (aggregate ts) - termsVal ρ ts| ≤ slack ρ ts := by
  have htol : 0 ≤ tol := by unfold tol; positivity
  induction ts using aggregate.induct with
  | case1 =>
    unfold aggregate
    exact ⟨List.Pairwise.nil, by simp, fun ρ => by simp [slack]⟩
  | case2 t h =>
    unfold aggregate
    rw [if_pos h]
    refine ⟨List.Pairwise.nil, by simp, fun ρ => ?_⟩
    simp only [termsVal, slack, List.map_nil, List.sum_nil, List.map_cons, add_zero, zero_sub, abs_neg, List.sum_cons,
      abs_mul]
    exact mul_le_mul_of_nonneg_right h.le (abs_nonneg _)
  | case3 t h =>
    unfold aggregate
    rw [if_neg h]
    refine ⟨List.pairwise_singleton _ _, ?_, fun ρ => ?_⟩
    · intro u hu
      rw [List.mem_singleton] at hu
      rw [hu]
      exact ⟨⟨t, by simp, rfl⟩, not_lt.1 h⟩
    · rw [sub_self, abs_zero]; exact slack_nonneg _ _
  | case4 t u r h ih =>
    have hs' := List.pairwise_cons.1 hs
    have hs2 := List.pairwise_cons.1 hs'.2
    obtain ⟨i1, i2, i3⟩ := ih (List.pairwise_cons.2 ⟨fun w hw => hs'.1 w (List.mem_cons_of_mem _ hw), hs2.2⟩)
    unfold aggregate
    rw [if_pos h]
    refine ⟨i1, ?_, fun ρ => ?_⟩
    · intro w hw
      obtain ⟨⟨x, hx, e⟩, h2⟩ := i2 w hw
      refine ⟨?_, h2⟩
      rcases List.mem_cons.1 hx with rfl | hx
      · exact ⟨t, by simp, e⟩
      · exact ⟨x, by simp [hx], e⟩
    · have e : termsVal ρ (⟨t.var, t.coeff + u.coeff⟩ :: r) = termsVal ρ (t :: u :: r) := by
        rw [termsVal_cons, termsVal_cons, termsVal_cons, ← h]; simp only; ring
      have s : slack ρ (⟨t.var, t.coeff + u.coeff⟩ :: r) ≤ slack ρ (t :: u :: r) := by
        simp only [slack, List.map_cons, List.sum_cons]
        have : 0 ≤ tol * |ρ u.var| := by positivity
        linarith
      rw [← e]
      exact (i3 ρ).trans s
  | case5 t u r h hc ih =>
    have hs' := List.pairwise_cons.1 hs
    obtain ⟨i1, i2, i3⟩ := ih hs'.2
    unfold aggregate
    rw [if_neg h, if_pos hc]
    refine ⟨i1, ?_, fun ρ => ?_⟩
    · intro w hw
      obtain ⟨⟨x, hx, e⟩, h2⟩ := i2 w hw
      exact ⟨⟨x, List.mem_cons_of_mem _ hx, e⟩, h2⟩
    · rw [termsVal_cons]
      have s : slack ρ (t :: u :: r) = tol * |ρ t.var| + slack ρ (u :: r) := by simp [slack]
      rw [s]
      have h1 := abs_le.1 (i3 ρ)
      have h2 : |t.coeff * ρ t.var| ≤ tol * |ρ t.var| := by
        rw [abs_mul]; exact mul_le_mul_of_nonneg_right hc.le (abs_nonneg _)
      have h3 := abs_le.1 h2
      rw [abs_le]
      constructor <;> linarith [h1.1, h1.2, h3.1, h3.2]
  | case6 t u r h hc ih =>
    have hs' := List.pairwise_cons.1 hs
    obtain ⟨i1, i2, i3⟩ := ih hs'.2
    unfold aggregate
    rw [if_neg h, if_neg hc]
    have hlt : t.var < u.var := lt_of_le_of_ne (hs'.1 u (by simp)) h
    refine ⟨?_, ?_, fun ρ => ?_⟩
    · refine List.pairwise_cons.2 ⟨fun w hw => ?_, i1⟩
      obtain ⟨⟨x, hx, e⟩, -⟩ := i2 w hw
      rw [← e]
      rcases List.mem_cons.1 hx with rfl | hx
      · exact hlt
      · exact hlt.trans_le (List.rel_of_pairwise_cons hs'.2 hx)
    · intro w hw
      rcases List.mem_cons.1 hw with rfl | hw
      · exact ⟨⟨w, by simp, rfl⟩, not_lt.1 hc⟩
      · obtain ⟨⟨x, hx, e⟩, h2⟩ := i2 w hw
        exact ⟨⟨x, List.mem_cons_of_mem _ hx, e⟩, h2⟩
    · have s : slack ρ (t :: u :: r) = tol * |ρ t.var| + slack ρ (u :: r) := by simp [slack]
      rw [termsVal_cons, termsVal_cons, s]
      have h1 := abs_le.1 (i3 ρ)
      have : 0 ≤ tol * |ρ t.var| := by positivity
      rw [abs_le]
      constructor <;> linarith [h1.1, h1.2]

theorem sum_perm {ts us : List Term} (h : ts.Perm us) (f : Term → ℝ) : (ts.map f).sum = (us.map f).sum :=
  (h.map f).sum_eq

theorem ofTerms_spec {m : ℝ} [LawfulConst U m] (ts : List Term) : (ofTerms ts : Expression U).WF ∧
    (∀ u ∈ (ofTerms ts : Expression U).terms, (∃ w ∈ ts, w.var = u.var) ∧ tol ≤ |u.coeff|) ∧
    ∀ ρ, |(ofTerms ts : Expression U).val ρ - termsVal ρ ts| ≤ slack ρ ts := by
  have hp := List.perm_insertionSort (fun t u : Term => t.var ≤ u.var) ts
  have hsorted : (ts.insertionSort fun t u : Term => t.var ≤ u.var).Pairwise fun t u => t.var ≤ u.var := by
    have : Std.Total fun t u : Term => t.var ≤ u.var := ⟨fun a b => le_total _ _⟩
    have : IsTrans Term fun t u : Term => t.var ≤ u.var := ⟨fun a b c => le_trans⟩
    exact List.pairwise_insertionSort _ ts
  obtain ⟨h1, h2, h3⟩ := aggregate_spec _ hsorted
  refine ⟨h1, fun u hu => ?_, fun ρ => ?_⟩
  · obtain ⟨⟨w, hw, e⟩, h4⟩ := h2 u hu
    exact ⟨⟨w, hp.mem_iff.1 hw, e⟩, h4⟩
  · have h := h3 ρ
    unfold val ofTerms
    simp only
    rw [LawfulConst.zero, add_zero]
    have e1 : termsVal ρ (ts.insertionSort fun t u : Term => t.var ≤ u.var) = termsVal ρ ts := sum_perm hp _
    have e2 : slack ρ (ts.insertionSort fun t u : Term => t.var ≤ u.var) = slack ρ ts := sum_perm hp _
    rw [e1, e2] at h
    exact h

end Expression

end MQT.Sym
