/-
Proofs about operations with symbolic parameters.
-/
import Verif.IR.Symbolic
import Verif.Props.ParseU

set_option autoImplicit false

noncomputable section

open Classical

namespace MQT.IR.Symb

open ParseU
open OpType (p u2 u gphase rx ry rz rxx ryy rzz rzx xxminusyy xxplusyy)
open MQT.Sym (Symbolic)

variable {tol : ℝ} {nr : ℝ → ℤ} {asg : ℕ → Option ℝ}

theorem bind_ok {α β : Type} {r : Res α} {f : α → Res β} {b : β} (h : r.bind f = .ok b) : ∃ a, r = .ok a ∧ f a = .ok b := by
  cases r with
  | ok a => exact ⟨a, rfl, h⟩
  | throw => exact absurd h (by simp [Res.bind])
  | ub => exact absurd h (by simp [Res.bind])

theorem lift_ok {α : Type} {x : Option α} {a : α} (h : lift x = .ok a) : x = some a := by
  cases x with
  | none => exact absurd h (by simp [lift])
  | some b => simp only [lift, Res.ok.injEq] at h; rw [h]

theorem values_cons {s : Option Symbolic} {ss : List (Option Symbolic)} {x : ℝ} {ps vs : List ℝ} :
    values asg (s :: ss) (x :: ps) = .ok vs ↔
      ∃ v vs', vs = v :: vs' ∧ value asg s (some x) = .ok v ∧ values asg ss ps = .ok vs' := by
  rw [values, List.head?_cons, List.tail_cons]
  constructor
  · intro h
    obtain ⟨v, h1, h⟩ := bind_ok h
    obtain ⟨vs', h2, h⟩ := bind_ok h
    exact ⟨v, vs', (Res.ok.inj h).symm, h1, h2⟩
  · rintro ⟨v, vs', rfl, h1, h2⟩
    rw [h1, h2]
    rfl

theorem values_length {ss : List (Option Symbolic)} {ps vs : List ℝ} (h : values asg ss ps = .ok vs) : vs.length = ss.length := by
  induction ss generalizing ps vs with
  | nil => rw [values] at h; cases h; rfl
  | cons s ss ih =>
    rw [values] at h
    obtain ⟨v, -, h⟩ := bind_ok h
    obtain ⟨vs', h2, h⟩ := bind_ok h
    cases h
    rw [List.length_cons, List.length_cons, ih h2]

theorem eval_neg {e : Symbolic} {v : ℝ} (h : e.evaluate asg = .ok v) : e.neg.evaluate asg = .ok (-v) := by
  obtain ⟨hA, rfl⟩ := Sym.Expression.evaluate_inv h
  rw [Sym.Expression.evaluate_ok (ρ := fun v => (asg v).getD 0) (a := e.neg)]
  · obtain ⟨k, hk⟩ := Sym.Expression.neg_spec (m := 0) e
    rw [hk]; simp
  · intro t ht
    obtain ⟨t', ht', rfl⟩ := List.mem_map.1 ht
    exact hA t' ht'

theorem eval_add {e : Symbolic} {v x : ℝ} (h : e.evaluate asg = .ok v) :
    Sym.Expression.evaluate asg (⟨e.terms, e.const + x⟩ : Symbolic) = .ok (v + x) := by
  obtain ⟨hA, rfl⟩ := Sym.Expression.evaluate_inv h
  rw [Sym.Expression.evaluate_ok (ρ := fun v => (asg v).getD 0) (a := (⟨e.terms, e.const + x⟩ : Symbolic)) hA]
  simp only [Sym.Expression.val, Sym.Const.toReal, id]
  congr 1
  ring

/-- Negated parameter. -/
def negS (s : Option Symbolic) : Option Symbolic := s.map Sym.Expression.neg
def negX (s : Option Symbolic) (x : ℝ) : ℝ := if s.isSome then x else -x
def addS (v : ℝ) (s : Option Symbolic) : Option Symbolic := s.map fun e => ⟨e.terms, e.const + v⟩
def addX (v : ℝ) (s : Option Symbolic) (x : ℝ) : ℝ := if s.isSome then x else x + v

theorem value_neg {s : Option Symbolic} {x v : ℝ} (h : value asg s (some x) = .ok v) :
    value asg (negS s) (some (negX s x)) = .ok (-v) := by
  cases s with
  | none => simp only [value, Res.ok.injEq] at h; simp [negS, negX, value, h]
  | some e => exact eval_neg h

theorem value_add {s : Option Symbolic} {x v y : ℝ} (h : value asg s (some x) = .ok v) :
    value asg (addS y s) (some (addX y s x)) = .ok (v + y) := by
  cases s with
  | none => simp only [value, Res.ok.injEq] at h; simp [addS, addX, value, h]
  | some e => exact eval_add h

theorem negAt_eq {i : ℕ} {ps : List ℝ} {ss : List (Option Symbolic)} {x : ℝ} {s : Option Symbolic} (h1 : ps[i]? = some x)
    (h2 : ss[i]? = some s) : negAt i (ps, ss) = .ok (ps.set i (negX s x), ss.set i (negS s)) := by
  have e1 : ps.set i x = ps := by
    obtain ⟨h, rfl⟩ := List.getElem?_eq_some_iff.1 h1
    exact List.set_getElem_self h
  have e2 : ss.set i s = ss := by
    obtain ⟨h, rfl⟩ := List.getElem?_eq_some_iff.1 h2
    exact List.set_getElem_self h
  cases s with
  | none => simp [negAt, h1, h2, negX, negS, e2]
  | some e => simp [negAt, h2, negX, negS, e1]

theorem addAt_eq {i : ℕ} {v : ℝ} {ps : List ℝ} {ss : List (Option Symbolic)} {x : ℝ} {s : Option Symbolic} (h1 : ps[i]? = some x)
    (h2 : ss[i]? = some s) : addAt i v (ps, ss) = .ok (ps.set i (addX v s x), ss.set i (addS v s)) := by
  have e1 : ps.set i x = ps := by
    obtain ⟨h, rfl⟩ := List.getElem?_eq_some_iff.1 h1
    exact List.set_getElem_self h
  have e2 : ss.set i s = ss := by
    obtain ⟨h, rfl⟩ := List.getElem?_eq_some_iff.1 h2
    exact List.set_getElem_self h
  cases s with
  | none => simp [addAt, h1, h2, addX, addS, e2]
  | some e => simp [addAt, h2, addX, addS, e1]

theorem negAt_nil (i : ℕ) (ps : List ℝ) (ss : List (Option Symbolic)) (h : ss.length ≤ i) : negAt i (ps, ss) = .throw := by
  rw [negAt, List.getElem?_eq_none h]

/-- What inversion does to the parameters. -/
structure InvPars (asg : ℕ → Option ℝ) (ty : OpType) (vs : List ℝ) (cs : Finset Ctrl) (ts : List ℕ) (r : Res (List ℝ × List (Option Symbolic))) : Prop where
  sound : ∀ x, r = .ok x → x.1.length = x.2.length ∧
    ∃ vs', values asg x.2 x.1 = .ok vs' ∧ StdOp.invert ⟨ty, vs, cs, ts⟩ = some ⟨ty, vs', cs, ts⟩
  complete : ∀ s, StdOp.invert ⟨ty, vs, cs, ts⟩ = some s → ∃ x, r = .ok x

theorem first_spec {ty : OpType} {ps vs : List ℝ} {ss : List (Option Symbolic)} {cs : Finset Ctrl} {ts : List ℕ}
    (hl : ps.length = ss.length) (hv : values asg ss ps = .ok vs)
    (hi : ∀ vs, StdOp.invert ⟨ty, vs, cs, ts⟩ = (StdOp.mapFirst (fun a => -a) vs).map fun ps => ⟨ty, ps, cs, ts⟩) :
    InvPars asg ty vs cs ts (negAt 0 (ps, ss)) := by
  cases ss with
  | nil =>
    rw [values] at hv; cases hv
    rw [negAt_nil 0 ps [] (Nat.zero_le _)]
    exact ⟨fun x h => (by cases h), fun s h => by rw [hi] at h; cases h⟩
  | cons s ss =>
    cases ps with
    | nil => cases hl
    | cons x ps =>
      obtain ⟨v, vs', rfl, h1, h2⟩ := values_cons.1 hv
      rw [negAt_eq (x := x) (s := s) rfl rfl]
      refine ⟨fun y h => ?_, fun s _ => ⟨_, rfl⟩⟩
      cases h
      refine ⟨by simpa using hl, -v :: vs', values_cons.2 ⟨_, _, rfl, value_neg h1, h2⟩, by rw [hi]; rfl⟩

theorem two_spec {ps vs : List ℝ} {ss : List (Option Symbolic)} {cs : Finset Ctrl} {ts : List ℕ}
    (hl : ps.length = ss.length) (hv : values asg ss ps = .ok vs) :
    ∀ r, invPars u2 (ps, ss) = some r → InvPars asg u2 vs cs ts r := by
  rintro r ⟨⟩
  rcases ss with _ | ⟨s1, _ | ⟨s2, ss⟩⟩
  · rw [values] at hv; cases hv
    rw [negAt_nil 0 ps [] (Nat.zero_le _)]
    exact ⟨fun x h => (by cases h), fun s h => by cases h⟩
  · obtain ⟨x1, rfl⟩ : ∃ x, ps = [x] := List.length_eq_one_iff.1 hl
    obtain ⟨v, vs', rfl, h1, h2⟩ := values_cons.1 hv
    rw [values] at h2; cases h2
    rw [negAt_eq (x := x1) (s := s1) rfl rfl]
    simp only [Res.bind, List.set_cons_zero]
    rw [negAt_nil 1 _ _ (by simp)]
    exact ⟨fun x h => (by cases h), fun s h => by cases h⟩
  · rcases ps with _ | ⟨x1, _ | ⟨x2, ps⟩⟩
    · cases hl
    · simp at hl
    · obtain ⟨v1, vs', rfl, h1, hv⟩ := values_cons.1 hv
      obtain ⟨v2, vs, rfl, h2, hv⟩ := values_cons.1 hv
      rw [negAt_eq (x := x1) (s := s1) rfl rfl]
      simp only [Res.bind, List.set_cons_zero]
      rw [negAt_eq (x := x2) (s := s2) rfl rfl]
      simp only [List.set_cons_succ, List.set_cons_zero]
      rw [addAt_eq (x := negX s1 x1) (s := negS s1) rfl rfl]
      simp only [List.set_cons_zero]
      rw [addAt_eq (x := negX s2 x2) (s := negS s2) rfl rfl]
      simp only [List.set_cons_succ, List.set_cons_zero, swapBoth, swapAt, List.getElem?_cons_zero, List.getElem?_cons_succ, Res.bind]
      refine ⟨fun y h => ?_, fun s _ => ⟨_, rfl⟩⟩
      cases h
      refine ⟨by simpa using hl, _, values_cons.2 ⟨_, _, rfl, value_add (value_neg h2),
        values_cons.2 ⟨_, _, rfl, value_add (value_neg h1), hv⟩⟩, rfl⟩

theorem three_spec {ps vs : List ℝ} {ss : List (Option Symbolic)} {cs : Finset Ctrl} {ts : List ℕ}
    (hl : ps.length = ss.length) (hv : values asg ss ps = .ok vs) :
    ∀ r, invPars u (ps, ss) = some r → InvPars asg u vs cs ts r := by
  rintro r ⟨⟩
  rcases ss with _ | ⟨s1, _ | ⟨s2, _ | ⟨s3, ss⟩⟩⟩
  · rw [values] at hv; cases hv
    rw [negAt_nil 0 ps [] (Nat.zero_le _)]
    exact ⟨fun x h => (by cases h), fun s h => by cases h⟩
  · obtain ⟨x1, rfl⟩ : ∃ x, ps = [x] := List.length_eq_one_iff.1 hl
    obtain ⟨v, vs', rfl, h1, h2⟩ := values_cons.1 hv
    rw [values] at h2; cases h2
    rw [negAt_eq (x := x1) (s := s1) rfl rfl]
    simp only [Res.bind, List.set_cons_zero]
    rw [negAt_nil 1 _ _ (by simp)]
    exact ⟨fun x h => (by cases h), fun s h => by cases h⟩
  · obtain ⟨x1, x2, rfl⟩ : ∃ x y, ps = [x, y] := List.length_eq_two.1 hl
    obtain ⟨v1, vs', rfl, h1, hv⟩ := values_cons.1 hv
    obtain ⟨v2, vs, rfl, h2, hv⟩ := values_cons.1 hv
    rw [values] at hv; cases hv
    rw [negAt_eq (x := x1) (s := s1) rfl rfl]
    simp only [Res.bind, List.set_cons_zero]
    rw [negAt_eq (x := x2) (s := s2) rfl rfl]
    simp only [List.set_cons_succ, List.set_cons_zero]
    rw [negAt_nil 2 _ _ (by simp)]
    exact ⟨fun x h => (by cases h), fun s h => by cases h⟩
  · rcases ps with _ | ⟨x1, _ | ⟨x2, _ | ⟨x3, ps⟩⟩⟩
    · cases hl
    · simp at hl
    · simp at hl
    · obtain ⟨v1, vs', rfl, h1, hv⟩ := values_cons.1 hv
      obtain ⟨v2, vs'', rfl, h2, hv⟩ := values_cons.1 hv
      obtain ⟨v3, vs, rfl, h3, hv⟩ := values_cons.1 hv
      rw [negAt_eq (x := x1) (s := s1) rfl rfl]
      simp only [Res.bind, List.set_cons_zero]
      rw [negAt_eq (x := x2) (s := s2) rfl rfl]
      simp only [List.set_cons_succ, List.set_cons_zero]
      rw [negAt_eq (x := x3) (s := s3) rfl rfl]
      simp only [List.set_cons_succ, List.set_cons_zero, swapBoth, swapAt, List.getElem?_cons_zero, List.getElem?_cons_succ, Res.bind]
      refine ⟨fun y h => ?_, fun s _ => ⟨_, rfl⟩⟩
      cases h
      refine ⟨by simpa using hl, _, values_cons.2 ⟨_, _, rfl, value_neg h1, values_cons.2 ⟨_, _, rfl, value_neg h3,
        values_cons.2 ⟨_, _, rfl, value_neg h2, hv⟩⟩⟩, rfl⟩

theorem invPars_spec {ty : OpType} {ps vs : List ℝ} {ss : List (Option Symbolic)} {cs : Finset Ctrl} {ts : List ℕ}
    (hl : ps.length = ss.length) (hv : values asg ss ps = .ok vs) (r : Res (List ℝ × List (Option Symbolic)))
    (hr : invPars ty (ps, ss) = some r) : InvPars asg ty vs cs ts r := by
  cases ty <;> first
    | exact two_spec hl hv r hr
    | exact three_spec hl hv r hr
    | (cases hr; exact first_spec hl hv fun _ => rfl)
    | exact absurd hr (by simp [invPars])

/-- Inversion without parameters. -/
theorem invert_other {ty : OpType} (h : ∀ x, invPars ty x = none) (vs vs' : List ℝ) (cs : Finset Ctrl) (ts : List ℕ) :
    StdOp.invert ⟨ty, vs', cs, ts⟩ = (StdOp.invert ⟨ty, vs, cs, ts⟩).map fun s => ⟨s.type, vs', s.controls, s.targets⟩ := by
  cases ty <;> first
    | rfl
    | (rcases ts with _ | ⟨a, _ | ⟨b, l⟩⟩ <;> rfl)
    | exact absurd (h ([], [])) (by simp [invPars])

theorem invert_params {ty : OpType} (h : ∀ x, invPars ty x = none) {vs : List ℝ} {cs : Finset Ctrl} {ts : List ℕ} {s : StdOp ℝ}
    (hs : StdOp.invert ⟨ty, vs, cs, ts⟩ = some s) : s.params = vs := by
  rw [invert_other h vs vs] at hs
  obtain ⟨s', -, rfl⟩ := Option.map_eq_some_iff.1 hs
  rfl

/-! ### Construction -/

theorem inPlace_nil (ty : OpType) (x : OpType × List ℝ) : inPlace ty [] x = x := by
  rw [inPlace]; split_ifs
  · rw [List.append_nil]
  · rfl

/-- The number of parameters. -/
def Arity (ty : OpType) (n : ℕ) : Prop := (ty = p → n = 1) ∧ (ty = u2 → n = 2) ∧ (ty = u → n = 3)

theorem check_eq {ty : OpType} {ps : List ℝ} (h : Arity ty ps.length) : check tol nr ty ps = lift (checkUgate tol nr ty ps) := by
  obtain ⟨h1, h2, h3⟩ := h
  have e : ∀ (ty : OpType) (x : Option (OpType × List ℝ)), x.map (inPlace ty []) = x := fun ty x => by
    cases x with
    | none => rfl
    | some x => rw [Option.map_some, inPlace_nil]
  unfold check checkUgate
  split
  · rfl
  · by_cases hp : ty = p
    · obtain ⟨l, rfl⟩ := List.length_eq_one_iff.1 (h1 hp)
      subst hp
      simp only [e]
    · by_cases hp2 : ty = u2
      · obtain ⟨f, l, rfl⟩ := List.length_eq_two.1 (h2 hp2)
        subst hp2
        simp only [e]
      · by_cases hp3 : ty = u
        · obtain ⟨a, f, l, rfl⟩ := List.length_eq_three.1 (h3 hp3)
          subst hp3
          simp only [e]
        · revert hp hp2 hp3
          cases ty <;> intro hp hp2 hp3 <;> first | rfl | exact absurd rfl hp | exact absurd rfl hp2 | exact absurd rfl hp3

/-- The value of a parameter. -/
def Par.eval (asg : ℕ → Option ℝ) : Par → Res ℝ
  | .num x => .ok x
  | .sym e => e.evaluate asg

/-- The values of the parameters. -/
def Asked (asg : ℕ → Option ℝ) (params : List Par) (vs : List ℝ) : Prop := List.Forall₂ (fun q v => q.eval asg = .ok v) params vs

/-- The stored numbers are close to the given ones. -/
def Fits (tol : ℝ) (params : List Par) (par : List ℝ) : Prop :=
  List.Forall₂ (fun q y => ∀ x, q = Par.num x → Within tol 12 y x) params par

theorem fits_self (ht : 0 ≤ tol) (params : List Par) : Fits tol params (params.map Par.toNum) := by
  induction params with
  | nil => exact .nil
  | cons q l ih =>
    refine .cons (fun x hx => ?_) ih
    rw [hx]
    exact Within.refl ht (by norm_num) x

theorem fits_values {params : List Par} {par vs : List ℝ} (ht : 0 ≤ tol) (hf : Fits tol params par) (ha : Asked asg params vs) :
    ∃ vs', values asg (params.map Par.toSym) par = .ok vs' ∧ List.Forall₂ (Within tol 12) vs' vs := by
  induction hf generalizing vs with
  | nil => cases ha; exact ⟨[], rfl, .nil⟩
  | cons h1 hf ih =>
    cases ha with
    | cons hv ha =>
      obtain ⟨vs', h2, h3⟩ := ih ha
      rename_i q y l par v vs
      cases q with
      | num x =>
        simp only [Par.eval, Res.ok.injEq] at hv
        subst hv
        exact ⟨y :: vs', values_cons.2 ⟨_, _, rfl, rfl, h2⟩, .cons (h1 x rfl) h3⟩
      | sym e => exact ⟨v :: vs', values_cons.2 ⟨_, _, rfl, hv, h2⟩, .cons (Within.refl ht (by norm_num) v) h3⟩

theorem exact_values {params : List Par} {vs : List ℝ} (ha : Asked asg params vs) :
    values asg (params.map Par.toSym) (params.map Par.toNum) = .ok vs := by
  induction ha with
  | nil => rfl
  | cons hv ha ih =>
    rename_i q v l vs
    refine values_cons.2 ⟨_, _, rfl, ?_, ih⟩
    cases q with
    | num x => exact hv
    | sym e => exact hv

/-- The parameters for which the constructor confuses the types. -/
def Lost (tol : ℝ) (ty : OpType) (params : List Par) : Prop :=
  ty = u ∧ ∃ a q r, params = [.num a, q, r] ∧
    (Near tol a (Real.pi / 2) ∨ (Near tol a 0 ∧ ∃ f, q = .num f ∧ Near tol f 0))

/-- A number for which rounding is sure to give a number. -/
def Small (tol a : ℝ) : Prop := |a| + tol ≤ Real.pi / tol

theorem fix_small (h0 : 0 < tol) (h1 : tol ≤ 1 / 2) {a : ℝ} (h : Small tol a) : ∃ b, fix tol nr a = some b ∧ Within tol 9 b a := by
  obtain ⟨b, hb⟩ := Option.isSome_iff_exists.1 (fix_isSome (nr := nr) h0 h)
  exact ⟨b, hb, fix_within h0.le h1 hb⟩

theorem small_clamp {P : Prop} [Decidable P] (h0 : 0 < tol) (h1 : tol ≤ 1 / 2) {v a : ℝ} (hv : |v| ≤ Real.pi) (ha : Small tol a) :
    Small tol (clamp P v a) := by
  unfold clamp
  split_ifs
  · unfold Small
    have hp := Real.two_le_pi
    have : 2 * Real.pi ≤ Real.pi / tol := by
      rw [le_div_iff₀ h0]
      have := mul_le_mul_of_nonneg_left h1 (show 0 ≤ 2 * Real.pi by linarith)
      linarith
    linarith
  · exact ha

theorem abs_le_pi : |(0 : ℝ)| ≤ Real.pi ∧ |Real.pi / 2| ≤ Real.pi ∧ |Real.pi| ≤ Real.pi := by
  have := Real.pi_pos
  refine ⟨by rw [abs_zero]; exact this.le, ?_, ?_⟩
  · rw [abs_of_pos (by linarith)]; linarith
  · rw [abs_of_pos this]

theorem parseSNN_ok (h0 : 0 < tol) (h1 : tol ≤ 1 / 2) {f l : ℝ} (hf : Small tol f) (hl : Small tol l) :
    ∃ f' l', parseSNN tol nr f l = some (f', l') ∧ Within tol 12 f' f ∧ Within tol 12 l' l := by
  obtain ⟨z1, z2, z3⟩ := abs_le_pi
  unfold parseSNN
  dsimp only
  set l1 := clamp (Near tol l 0) 0 l with e1
  set f1 := clamp (Near tol l 0 ∧ Near tol f 0) 0 f with e2
  set l2 := clamp (Near tol l1 (Real.pi / 2)) (Real.pi / 2) l1 with e3
  set f2 := clamp (Near tol l1 (Real.pi / 2) ∧ Near tol f1 (Real.pi / 2)) (Real.pi / 2) f1 with e4
  set l3 := clamp (Near tol l2 Real.pi) Real.pi l2 with e5
  set f3 := clamp (Near tol l2 Real.pi ∧ Near tol f2 0) 0 f2 with e6
  have w1 : Within tol 1 l1 l := clamp_within h0.le fun h => h
  have w2 : Within tol 1 f1 f := clamp_within h0.le fun h => h.2
  have w3 : Within tol 1 l2 l1 := clamp_within h0.le fun h => h
  have w4 : Within tol 1 f2 f1 := clamp_within h0.le fun h => h.2
  have w5 : Within tol 1 l3 l2 := clamp_within h0.le fun h => h
  have w6 : Within tol 1 f3 f2 := clamp_within h0.le fun h => h.2
  have s5 : Small tol l3 := small_clamp h0 h1 z3 (small_clamp h0 h1 z2 (small_clamp h0 h1 z1 hl))
  have s6 : Small tol f3 := small_clamp h0 h1 z1 (small_clamp h0 h1 z2 (small_clamp h0 h1 z1 hf))
  obtain ⟨l', hl', wl⟩ := fix_small (nr := nr) h0 h1 s5
  obtain ⟨f', hf', wf⟩ := fix_small (nr := nr) h0 h1 s6
  rw [hl', hf']
  exact ⟨f', l', rfl, (((wf.trans w6).trans w4).trans w2).mono h0.le (by norm_num),
    (((wl.trans w5).trans w3).trans w1).mono h0.le (by norm_num)⟩

theorem clampL_ok (h0 : 0 < tol) (h1 : tol ≤ 1 / 2) {l : ℝ} (hl : Small tol l) :
    Small tol (clampL tol l) ∧ Within tol 3 (clampL tol l) l := by
  obtain ⟨z1, z2, z3⟩ := abs_le_pi
  unfold clampL
  dsimp only
  set l1 := clamp (Near tol l 0) 0 l with e1
  set l2 := clamp (Near tol l1 (Real.pi / 2)) (Real.pi / 2) l1 with e3
  have w1 : Within tol 1 l1 l := clamp_within h0.le fun h => h
  have w3 : Within tol 1 l2 l1 := clamp_within h0.le fun h => h
  have w5 : Within tol 1 (clamp (Near tol l2 Real.pi) Real.pi l2) l2 := clamp_within h0.le fun h => h
  exact ⟨small_clamp h0 h1 z3 (small_clamp h0 h1 z2 (small_clamp h0 h1 z1 hl)),
    ((w5.trans w3).trans w1).mono h0.le (by norm_num)⟩

theorem small_zero (h0 : 0 < tol) (h1 : tol ≤ 1 / 2) : Small tol 0 := by
  have hp := Real.two_le_pi
  unfold Small
  rw [abs_zero, zero_add, le_div_iff₀ h0]
  nlinarith

/-- The constructor keeps the type and the parameters, up to rounding. -/
theorem new_fits (h0 : 0 < tol) (h1 : tol ≤ 1 / 2) {ty : OpType} {params : List Par} (hty : ty = p ∨ ty = u2 ∨ ty = u)
    (har : Arity ty params.length) (hs : ∃ e, Par.sym e ∈ params) (hl : ¬ Lost tol ty params)
    (hb : ∀ x, Par.num x ∈ params → Small tol x) :
    ∃ par, checkSym tol nr ty (params.map Par.toNum) (params.map Par.toSym) = .ok (ty, par) ∧ Fits tol params par := by
  obtain ⟨a1, a2, a3⟩ := har
  have z := small_zero h0 h1
  have N9 : ∀ {b a : ℝ}, Within tol 9 b a → ∀ x, Par.num a = Par.num x → Within tol 12 b x := fun h x hx => by
    cases hx; exact h.mono h0.le (by norm_num)
  have S : ∀ {b : ℝ} {e : Symbolic}, ∀ x, Par.sym e = Par.num x → Within tol 12 b x := fun x hx => by cases hx
  rcases hty with rfl | rfl | rfl
  · obtain ⟨q, rfl⟩ := List.length_eq_one_iff.1 (a1 rfl)
    cases q with
    | num x => obtain ⟨e, he⟩ := hs; simp at he
    | sym e => exact ⟨_, rfl, fits_self h0.le _⟩
  · obtain ⟨q, r, rfl⟩ := List.length_eq_two.1 (a2 rfl)
    cases q with
    | sym e =>
      cases r with
      | num y =>
        obtain ⟨l', hl', wl⟩ := fix_small (nr := nr) h0 h1 (hb y (by simp))
        refine ⟨_, by simp only [checkSym, List.map, Par.toSym, Par.toNum, hl', Option.map_some, lift]; rfl, ?_⟩
        exact .cons S (.cons (N9 wl) .nil)
      | sym e' =>
        obtain ⟨l', hl', wl⟩ := fix_small (nr := nr) h0 h1 z
        refine ⟨_, by simp only [checkSym, List.map, Par.toSym, Par.toNum, hl', Option.map_some, lift]; rfl, ?_⟩
        exact .cons S (.cons S .nil)
    | num x =>
      cases r with
      | num y => obtain ⟨e, he⟩ := hs; simp at he
      | sym e' =>
        obtain ⟨l', hl', wl⟩ := fix_small (nr := nr) h0 h1 (hb x (by simp))
        refine ⟨_, by simp only [checkSym, List.map, Par.toSym, Par.toNum, hl', Option.map_some, lift]; rfl, ?_⟩
        exact .cons (N9 wl) (.cons S .nil)
  · obtain ⟨q, r, t, rfl⟩ := List.length_eq_three.1 (a3 rfl)
    have hl' : ∀ a, q = .num a → ¬ Near tol a (Real.pi / 2) ∧ ∀ f, r = .num f → ¬ (Near tol a 0 ∧ Near tol f 0) := by
      rintro a rfl
      refine ⟨fun h => hl ⟨rfl, a, r, t, rfl, Or.inl h⟩, ?_⟩
      rintro f rfl ⟨h, h'⟩
      exact hl ⟨rfl, a, _, t, rfl, Or.inr ⟨h, f, rfl, h'⟩⟩
    cases q with
    | num a =>
      obtain ⟨n1, n2⟩ := hl' a rfl
      obtain ⟨a', ha', wa⟩ := fix_small (nr := nr) h0 h1 (hb a (by simp))
      cases r with
      | num f =>
        obtain ⟨f', hf', wf⟩ := fix_small (nr := nr) h0 h1 (hb f (by simp))
        cases t with
        | num l => obtain ⟨e, he⟩ := hs; simp at he
        | sym e =>
          refine ⟨_, by simp only [checkSym, List.map, Par.toSym, Par.toNum, if_neg (n2 f rfl), if_neg n1, ha', hf']; rfl, ?_⟩
          exact .cons (N9 wa) (.cons (N9 wf) (.cons S .nil))
      | sym e =>
        cases t with
        | num l =>
          obtain ⟨s, w⟩ := clampL_ok h0 h1 (hb l (by simp))
          obtain ⟨l', hl', wl⟩ := fix_small (nr := nr) h0 h1 s
          refine ⟨_, by simp only [checkSym, List.map, Par.toSym, Par.toNum, if_neg n1, ha', hl']; rfl, ?_⟩
          refine .cons (N9 wa) (.cons S (.cons (fun x hx => ?_) .nil))
          cases hx
          exact (wl.trans w).mono h0.le (by norm_num)
        | sym e' =>
          refine ⟨_, by simp only [checkSym, List.map, Par.toSym, Par.toNum, if_neg n1, ha', Option.map_some, lift]; rfl, ?_⟩
          exact .cons (N9 wa) (.cons S (.cons S .nil))
    | sym e =>
      cases r with
      | num f =>
        cases t with
        | num l =>
          obtain ⟨f', l', hfl, wf, wl⟩ := parseSNN_ok (nr := nr) h0 h1 (hb f (by simp)) (hb l (by simp))
          refine ⟨_, by simp only [checkSym, List.map, Par.toSym, Par.toNum, hfl, Option.map_some, lift]; rfl, ?_⟩
          exact .cons S (.cons (fun x hx => by cases hx; exact wf) (.cons (fun x hx => by cases hx; exact wl) .nil))
        | sym e' =>
          obtain ⟨f', hf', wf⟩ := fix_small (nr := nr) h0 h1 (hb f (by simp))
          refine ⟨_, by simp only [checkSym, List.map, Par.toSym, Par.toNum, hf', Option.map_some, lift]; rfl, ?_⟩
          exact .cons S (.cons (N9 wf) (.cons S .nil))
      | sym e' =>
        cases t with
        | num l =>
          obtain ⟨l', hl', wl⟩ := fix_small (nr := nr) h0 h1 (hb l (by simp))
          refine ⟨_, by simp only [checkSym, List.map, Par.toSym, Par.toNum, hl', Option.map_some, lift]; rfl, ?_⟩
          exact .cons S (.cons S (.cons (N9 wl) .nil))
        | sym e'' => exact ⟨_, rfl, fits_self h0.le _⟩

theorem new_other {ty : OpType} {params : List Par} (h1 : ty ≠ p) (h2 : ty ≠ u2) (h3 : ty ≠ u) :
    checkSym tol nr ty (params.map Par.toNum) (params.map Par.toSym) = .ok (ty, params.map Par.toNum) := by
  revert h1 h2 h3
  cases ty <;> intro h1 h2 h3 <;> first | rfl | exact absurd rfl h1 | exact absurd rfl h2 | exact absurd rfl h3

/-- Close parameters give close matrices. -/
theorem gate_close {ty : OpType} {ps vs : List ℝ} {M : Mat1} (ht : 0 ≤ tol) (hty : ty = p ∨ ty = u2 ∨ ty = u)
    (har : Arity ty vs.length) (hw : List.Forall₂ (Within tol 12) ps vs) (hM : gate1 ty vs = some M) :
    ∃ N, gate1 ty ps = some N ∧ ∀ r c, ‖N r c - M r c‖ ≤ 36 * tol := by
  obtain ⟨a1, a2, a3⟩ := har
  rcases hty with rfl | rfl | rfl
  · obtain ⟨l, rfl⟩ := List.length_eq_one_iff.1 (a1 rfl)
    rcases hw with _ | ⟨w1, w⟩
    cases w
    rename_i l'
    cases hM
    refine ⟨_, rfl, fun r c => ?_⟩
    have := uMat_dist l' 0 0 l 0 0 r c
    rw [uMat_zero, uMat_zero] at this
    refine this.trans ?_
    simp only [Within] at w1
    simp; linarith
  · obtain ⟨f, l, rfl⟩ := List.length_eq_two.1 (a2 rfl)
    rcases hw with _ | ⟨w1, _ | ⟨w2, w⟩⟩
    cases w
    rename_i f' l'
    cases hM
    refine ⟨_, rfl, fun r c => ?_⟩
    have := uMat_dist l' f' (Real.pi / 2) l f (Real.pi / 2) r c
    rw [uMat_half, uMat_half] at this
    refine this.trans ?_
    simp only [Within] at w1 w2
    simp; linarith
  · obtain ⟨a, f, l, rfl⟩ := List.length_eq_three.1 (a3 rfl)
    rcases hw with _ | ⟨w1, _ | ⟨w2, _ | ⟨w3, w⟩⟩⟩
    cases w
    rename_i a' f' l'
    cases hM
    refine ⟨_, rfl, fun r c => ?_⟩
    refine (uMat_dist l' f' a' l f a r c).trans ?_
    simp only [Within] at w1 w2 w3
    linarith

end MQT.IR.Symb
