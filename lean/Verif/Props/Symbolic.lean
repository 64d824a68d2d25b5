/-
Property C95: operations with symbolic parameters.
-/
import Verif.IR.SymbolicProof
import Verif.Props.StdOps

set_option autoImplicit false

noncomputable section

open Classical

namespace MQT.IR.Symb

open ParseU
open OpType (p u2 u rx rz)
open MQT.Sym (Symbolic)

variable {tol : ℝ} {nr : ℝ → ℤ} {asg : ℕ → Option ℝ}

theorem asked_length {params : List Par} {vs : List ℝ} (h : Asked asg params vs) : vs.length = params.length :=
  (List.Forall₂.length_eq h).symm

theorem asked_num {params : List Par} {vs : List ℝ} (h : Asked asg params vs) {x : ℝ} (hx : Par.num x ∈ params) : x ∈ vs := by
  induction h with
  | nil => cases hx
  | cons h1 h2 ih =>
    rcases List.mem_cons.1 hx with rfl | hx
    · cases h1; exact List.mem_cons_self
    · exact List.mem_cons_of_mem _ (ih hx)

/-- **C95.** An operation constructed with some symbol among its parameters and instantiated is the gate asked for with the values of
the parameters: exactly, if its type is not `p`, `u2` or `u`, and otherwise up to the tolerance in every entry of its matrix.

Missing from C95: a `u` gate is lost if its first angle is a number near π/2, or its first two angles are numbers near zero
(`c95_lost_p`, `c95_lost_u2`). -/
theorem c95_instantiate_partial (h0 : 0 < tol) (h1 : tol ≤ 1 / 2) {ty : OpType} {params : List Par} {vs : List ℝ} (cs : Finset Ctrl)
    (ts : List ℕ) (har : Arity ty params.length) (hs : ∃ e, Par.sym e ∈ params) (hl : ¬ Lost tol ty params)
    (ha : Asked asg params vs) (hb : ∀ v ∈ vs, |v| + 13 * tol ≤ Real.pi / tol) :
    ∃ o r, new tol nr ty params cs ts = .ok o ∧ o.instantiated tol nr asg = .ok r ∧ r.controls = cs ∧ r.targets = ts ∧
      (¬ (ty = p ∨ ty = u2 ∨ ty = u) → r.type = ty ∧ r.params = vs) ∧
      ∀ M, (ty = p ∨ ty = u2 ∨ ty = u) → gate1 ty vs = some M →
        ∃ N, gate1 r.type r.params = some N ∧ ∀ i j, ‖N i j - M i j‖ ≤ 75 * tol := by
  by_cases hty : ty = p ∨ ty = u2 ∨ ty = u
  · obtain ⟨par, hpar, hf⟩ := new_fits (nr := nr) h0 h1 hty har hs hl fun x hx => by
      have := hb x (asked_num ha hx)
      unfold Small
      linarith
    obtain ⟨vs', hvs', hw⟩ := fits_values h0.le hf ha
    have hlen : vs'.length = params.length := by rw [values_length hvs', List.length_map]
    have har' : Arity ty vs'.length := by rw [hlen]; exact har
    have hsome := c21_always_a_gate tol nr h0 h1 ty vs' (fun a ha' => by
      obtain ⟨i, hi, rfl⟩ := List.getElem_of_mem ha'
      have hi' : i < vs.length := by rw [← hw.length_eq]; exact hi
      have w := hw.get hi hi'
      have b := hb _ (List.getElem_mem hi')
      simp only [List.get_eq_getElem, Within] at w
      have : |vs'[i]| ≤ |vs'[i] - vs[i]| + |vs[i]| := by
        have := abs_add_le (vs'[i] - vs[i]) vs[i]
        rwa [sub_add_cancel] at this
      linarith) har'
    obtain ⟨⟨ty', ps'⟩, hc⟩ := Option.isSome_iff_exists.1 hsome
    refine ⟨⟨ty, par, params.map Par.toSym, cs, ts⟩, ⟨ty', ps', cs, ts⟩, by rw [new, hpar]; rfl, ?_, rfl, rfl,
      fun h => absurd hty h, fun M _ hM => ?_⟩
    · rw [SymOp.instantiated]
      simp only [hvs', Res.bind, check_eq har', hc, lift]
    · obtain ⟨N, hN, hd⟩ := gate_close h0.le hty (by rw [asked_length ha]; exact har) hw hM
      obtain ⟨N', hN', hd'⟩ := c21_canonical_gate tol nr h0.le h1 ty ty' vs' ps' N hty hN hc
      refine ⟨N', hN', fun i j => ?_⟩
      have h2 := norm_sub_le_norm_sub_add_norm_sub (N' i j) (N i j) (M i j)
      have h3 := hd i j
      have h4 := hd' i j
      linarith
  · have hne : ty ≠ p ∧ ty ≠ u2 ∧ ty ≠ u := by
      refine ⟨fun h => hty (Or.inl h), fun h => hty (Or.inr (Or.inl h)), fun h => hty (Or.inr (Or.inr h))⟩
    refine ⟨⟨ty, params.map Par.toNum, params.map Par.toSym, cs, ts⟩, ⟨ty, vs, cs, ts⟩,
      by rw [new, new_other hne.1 hne.2.1 hne.2.2]; rfl, ?_, rfl, rfl, fun _ => ⟨rfl, rfl⟩, fun _ h => absurd h hty⟩
    rw [SymOp.instantiated]
    simp only [exact_values ha, Res.bind]
    rw [check_eq ⟨fun h => absurd h hne.1, fun h => absurd h hne.2.1, fun h => absurd h hne.2.2⟩,
      c21_other_types_untouched tol nr ty vs hne.1 hne.2.1 hne.2.2]
    rfl

/-- The variable 0. -/
def var0 : Symbolic := ⟨[⟨0, 1⟩], 0⟩

/-- It gets the value `a`. -/
def assign0 (a : ℝ) : ℕ → Option ℝ := fun v => if v = 0 then some a else none

theorem eval_var0 (a : ℝ) : var0.evaluate (assign0 a) = .ok a := by
  simp [var0, Sym.Expression.evaluate, assign0, Sym.Const.toReal]

/-- `U(x, 1, 2)` for `x = 3`. -/
example : ∃ o r, new (1 / 10 ^ 3) nr u [.sym var0, .num 1, .num 2] ∅ [4] = .ok o ∧
    o.instantiated (1 / 10 ^ 3) nr (assign0 3) = .ok r ∧ r.targets = [4] ∧
    ∃ N, gate1 r.type r.params = some N ∧ ∀ i j, ‖N i j - uMat 2 1 3 i j‖ ≤ 75 / 10 ^ 3 := by
  have hp := Real.two_le_pi
  obtain ⟨o, r, h1, h2, h3, h4, h5, h6⟩ := c95_instantiate_partial (tol := 1 / 10 ^ 3) (nr := nr) (asg := assign0 3) (ty := u)
    (params := [.sym var0, .num 1, .num 2]) (vs := [3, 1, 2]) (by norm_num) (by norm_num) ∅ [4] (by simp [Arity])
    ⟨var0, by simp⟩ (by rintro ⟨-, a, q, r, h, -⟩; simp at h) (.cons (eval_var0 3) (.cons rfl (.cons rfl .nil))) (by
      intro v hv
      simp only [List.mem_cons, List.not_mem_nil, or_false] at hv
      rw [le_div_iff₀ (by norm_num)]
      rcases hv with rfl | rfl | rfl <;> norm_num <;> linarith)
  obtain ⟨N, hN, hd⟩ := h6 (uMat 2 1 3) (Or.inr (Or.inr rfl)) rfl
  exact ⟨o, r, h1, h2, h4, N, hN, fun i j => (hd i j).trans (by norm_num)⟩

/-- **C95.** Instantiating in place gives the same operation, with no symbol left. -/
theorem c95_in_place (o : SymOp) (hl : o.par.length = o.sym.length) :
    o.instantiate tol nr asg = (o.instantiated tol nr asg).bind fun s =>
      .ok ⟨s.type, s.params, List.replicate o.sym.length none, s.controls, s.targets⟩ := by
  rw [SymOp.instantiate, SymOp.instantiated]
  cases values asg o.sym o.par with
  | throw => rfl
  | ub => rfl
  | ok vs =>
    simp only [Res.bind]
    rw [if_neg (by omega), List.drop_eq_nil_of_le (by omega), List.append_nil]
    cases check tol nr o.type vs with
    | throw => rfl
    | ub => rfl
    | ok r => simp [List.map_const']

/-- **C95.** Inverting and instantiating commute: the values of the inverted operation are those of the inverse of the standard
operation with these values; it exists if and only if that does. -/
theorem c95_invert {o : SymOp} {vs : List ℝ} (hl : o.par.length = o.sym.length) (hv : values asg o.sym o.par = .ok vs) :
    (∀ o', o.invert = .ok o' → ∃ vs', o'.par.length = o'.sym.length ∧ values asg o'.sym o'.par = .ok vs' ∧
      StdOp.invert ⟨o.type, vs, o.controls, o.targets⟩ = some ⟨o'.type, vs', o'.controls, o'.targets⟩) ∧
    ((∃ o', o.invert = .ok o') ↔ ∃ s, StdOp.invert ⟨o.type, vs, o.controls, o.targets⟩ = some s) := by
  have key : ∀ o', o.invert = .ok o' → ∃ vs', o'.par.length = o'.sym.length ∧ values asg o'.sym o'.par = .ok vs' ∧
      StdOp.invert ⟨o.type, vs, o.controls, o.targets⟩ = some ⟨o'.type, vs', o'.controls, o'.targets⟩ := by
    intro o' h
    rw [SymOp.invert] at h
    cases hi : invPars o.type (o.par, o.sym) with
    | some r =>
      simp only [hi] at h
      obtain ⟨x, hx, h⟩ := bind_ok h
      cases h
      obtain ⟨h1, vs', h2, h3⟩ := (invPars_spec (cs := o.controls) (ts := o.targets) hl hv r hi).sound x hx
      exact ⟨vs', h1, h2, h3⟩
    | none =>
      have hall : ∀ x, invPars o.type x = none := fun x => by
        revert hi; generalize o.type = ty; cases ty <;> simp [invPars]
      simp only [hi] at h
      cases hs : o.toStd.invert with
      | none => simp only [hs] at h; cases h
      | some s =>
        simp only [hs] at h
        cases h
        have hp := invert_params hall hs
        refine ⟨vs, by rw [hp]; exact hl, by rw [hp]; exact hv, ?_⟩
        rw [invert_other hall o.par vs, show StdOp.invert ⟨o.type, o.par, o.controls, o.targets⟩ = some s from hs]
        rfl
  refine ⟨key, ⟨fun ⟨o', h⟩ => ?_, fun ⟨s, h⟩ => ?_⟩⟩
  · obtain ⟨vs', -, -, h⟩ := key o' h
    exact ⟨_, h⟩
  · rw [SymOp.invert]
    cases hi : invPars o.type (o.par, o.sym) with
    | some r =>
      obtain ⟨x, rfl⟩ := (invPars_spec (cs := o.controls) (ts := o.targets) hl hv r hi).complete s h
      exact ⟨_, rfl⟩
    | none =>
      have hall : ∀ x, invPars o.type x = none := fun x => by
        revert hi; generalize o.type = ty; cases ty <;> simp [invPars]
      have : o.toStd.invert = (StdOp.invert ⟨o.type, vs, o.controls, o.targets⟩).map
          fun s => ⟨s.type, o.par, s.controls, s.targets⟩ := invert_other hall vs o.par o.controls o.targets
      rw [h] at this
      simp only [this, Option.map_some]
      exact ⟨_, rfl⟩

/-- **C95.** For every assignment, the inverted operation undoes the operation. -/
theorem c95_invert_undoes {o : SymOp} {vs : List ℝ} (hl : o.par.length = o.sym.length) (hv : values asg o.sym o.par = .ok vs)
    (wf : StdOp.WF (P := ℝ) ⟨o.type, vs, o.controls, o.targets⟩) {f : State → State}
    (hf : StdOp.denote ⟨o.type, vs, o.controls, o.targets⟩ = some f) :
    ∃ o' vs' g, o.invert = .ok o' ∧ values asg o'.sym o'.par = .ok vs' ∧
      StdOp.denote ⟨o'.type, vs', o'.controls, o'.targets⟩ = some g ∧ (∀ ψ, g (f ψ) = ψ) ∧ ∀ ψ, f (g ψ) = ψ := by
  obtain ⟨s, g, h1, h2, h3, h4⟩ := c19_invert_undoes _ wf f hf
  obtain ⟨k1, k2⟩ := c95_invert hl hv
  obtain ⟨o', ho'⟩ := k2.2 ⟨s, h1⟩
  obtain ⟨vs', -, h5, h6⟩ := k1 o' ho'
  rw [h6] at h1
  cases h1
  exact ⟨o', vs', g, ho', h5, h2, h3, h4⟩

/-- The inverse of `U2(x, 1)`. -/
example (a : ℝ) : ∃ o', SymOp.invert ⟨u2, [0, 1], [some var0, none], ∅, [0]⟩ = .ok o' ∧
    values (assign0 a) o'.sym o'.par = .ok [-1 + Real.pi, -a - Real.pi] := by
  have hv : values (assign0 a) [some var0, none] [0, 1] = .ok [a, 1] := by
    refine values_cons.2 ⟨a, [1], rfl, eval_var0 a, values_cons.2 ⟨1, [], rfl, rfl, rfl⟩⟩
  obtain ⟨k1, k2⟩ := c95_invert (o := ⟨u2, [0, 1], [some var0, none], ∅, [0]⟩) rfl hv
  obtain ⟨o', ho'⟩ := k2.2 ⟨_, rfl⟩
  obtain ⟨vs', -, h5, h6⟩ := k1 o' ho'
  have e : vs' = [-1 + Real.pi, -a - Real.pi] := (congrArg StdOp.params (Option.some.inj h6)).symm
  exact ⟨o', ho', by rw [h5, e]⟩

/-! ### Where the code fails -/

/-- **C95.** `U(0, 0, x)` becomes a `p` gate with three parameters; for `x = π` it is instantiated to the identity, not to `Z`. -/
theorem c95_lost_p (h0 : 0 < tol) (cs : Finset Ctrl) (ts : List ℕ) :
    ∃ o, new tol nr u [.num 0, .num 0, .sym var0] cs ts = .ok o ∧ o.type = p ∧ o.par.length = 3 ∧
      o.instantiated tol nr (assign0 Real.pi) = .ok ⟨.i, [], cs, ts⟩ ∧
      gate1 .i [] ≠ gate1 u [0, 0, Real.pi] := by
  have n0 : Near tol 0 0 := by simp [Near, h0]
  refine ⟨⟨p, [0, 0, 0], [none, none, some var0], cs, ts⟩, by simp [new, checkSym, Par.toSym, Par.toNum, n0, Res.bind], rfl, rfl, ?_,
    ?_⟩
  · have hv : values (assign0 Real.pi) [none, none, some var0] [0, 0, 0] = .ok [0, 0, Real.pi] :=
      values_cons.2 ⟨_, _, rfl, rfl, values_cons.2 ⟨_, _, rfl, rfl, values_cons.2 ⟨_, _, rfl, eval_var0 _, rfl⟩⟩⟩
    simp only [SymOp.instantiated, hv, Res.bind, check, List.isEmpty_cons, Bool.false_eq_true, if_false, parseU1, if_pos n0,
      Option.map_some, inPlace, lift]
    simp
  · intro h
    simp only [gate1, List.getElem?_cons_zero, List.getElem?_cons_succ, Option.some.injEq] at h
    have := congrFun (congrFun h true) true
    rw [uMat_zero, pMat_pi] at this
    simp only [mat1] at this
    norm_num at this

/-- **C95.** `U(π/2, 0, x)` becomes a `u2` gate with three parameters, the first two of which are read: for `x = 0` it is not
instantiated to `RY(π/2)`. -/
theorem c95_lost_u2 (h0 : 0 < tol) (h1 : tol ≤ 1 / 100) (cs : Finset Ctrl) (ts : List ℕ) :
    ∃ o r, new tol nr u [.num (Real.pi / 2), .num 0, .sym var0] cs ts = .ok o ∧ o.type = u2 ∧
      o.instantiated tol nr (assign0 0) = .ok r ∧ gate1 r.type r.params ≠ gate1 u [Real.pi / 2, 0, 0] := by
  have hp := Real.two_le_pi
  have hp4 := Real.pi_le_four
  have hq : 100 * Real.pi ≤ Real.pi / tol := by
    rw [le_div_iff₀ h0]
    have := mul_le_mul_of_nonneg_left h1 (show 0 ≤ 100 * Real.pi by linarith)
    linarith
  have n1 : ¬ (Near tol (Real.pi / 2) 0) := by
    unfold Near; rw [sub_zero, abs_of_pos (by linarith)]; linarith
  have n2 : Near tol (Real.pi / 2) (Real.pi / 2) := by simp [Near, h0]
  obtain ⟨b, hb, wb⟩ := fix_small (nr := nr) (a := 0) h0 (by linarith) (small_zero h0 (by linarith))
  have hbd : |b| ≤ 9 * tol := by simpa [Within] using wb
  have hb2 := abs_le.1 hbd
  refine ⟨⟨u2, [Real.pi / 2, b, 0], [none, none, some var0], cs, ts⟩, ?_⟩
  have hnew : new tol nr u [.num (Real.pi / 2), .num 0, .sym var0] cs ts =
      .ok ⟨u2, [Real.pi / 2, b, 0], [none, none, some var0], cs, ts⟩ := by
    simp [new, checkSym, Par.toSym, Par.toNum, n1, n2, hb, lift, Res.bind]
  have hv : values (assign0 0) [none, none, some var0] [Real.pi / 2, b, 0] = .ok [Real.pi / 2, b, 0] :=
    values_cons.2 ⟨_, _, rfl, rfl, values_cons.2 ⟨_, _, rfl, rfl, values_cons.2 ⟨_, _, rfl, eval_var0 _, rfl⟩⟩⟩
  have m1 : ¬ Near tol b (Real.pi / 2) := by
    unfold Near; rw [abs_sub_comm, abs_of_pos (by linarith)]; linarith
  have m2 : ¬ Near tol b (-(Real.pi / 2)) := by
    unfold Near; rw [abs_of_pos (by linarith)]; linarith
  obtain ⟨l, hl, wl⟩ := fix_small (nr := nr) (a := b) h0 (by linarith) (by unfold Small; linarith)
  obtain ⟨f, hf, wf⟩ := fix_small (nr := nr) (a := Real.pi / 2) h0 (by linarith)
    (by unfold Small; rw [abs_of_pos (by linarith)]; linarith)
  have hpar : parseU2 tol nr (Real.pi / 2) b = some (u2, [f, l]) := by
    simp [parseU2, clamp, n1, m1, m2, hl, hf]
  refine ⟨⟨u2, [f, l, 0], cs, ts⟩, hnew, rfl, ?_, ?_⟩
  · simp only [SymOp.instantiated, hv, Res.bind, check, List.isEmpty_cons, Bool.false_eq_true, if_false, hpar,
      Option.map_some, inPlace, lift]
    simp
  · intro h
    simp only [gate1, List.getElem?_cons_zero, List.getElem?_cons_succ, Option.some.injEq] at h
    have := congrArg Complex.im (congrFun (congrFun h true) false)
    rw [uMat_half] at this
    simp only [u2Mat, mat1, Real.sin_zero, zero_mul] at this
    unfold Within at wf
    have wf' := abs_le.1 wf
    have hs : 0 < Real.sin f := Real.sin_pos_of_pos_of_lt_pi (by linarith) (by linarith)
    have hr : 0 < r2 := by unfold r2; positivity
    exact absurd this (mul_pos hs hr).ne'

/-- **C95.** An operation without symbols that was canonicalised cannot be instantiated: the vector of symbols keeps its old length.
So the second of two instantiations throws. -/
theorem c95_twice (h0 : 0 < tol) (h1 : tol ≤ 1) (cs : Finset Ctrl) (ts : List ℕ) :
    ∃ o o', new tol nr p [.sym var0] cs ts = .ok o ∧ o.instantiate tol nr (assign0 Real.pi) = .ok o' ∧ o'.isStandard = true ∧
      o'.type = .z ∧ ∀ asg, o'.instantiate tol nr asg = .throw ∧ o'.instantiated tol nr asg = .throw := by
  have hp := Real.two_le_pi
  have n1 : ¬ Near tol Real.pi 0 := by unfold Near; rw [sub_zero, abs_of_pos (by linarith)]; linarith
  have n2 : Near tol |Real.pi| Real.pi := by rw [abs_of_pos (by linarith)]; simp [Near, h0]
  refine ⟨⟨p, [0], [some var0], cs, ts⟩, ⟨.z, [], [none], cs, ts⟩, rfl, ?_, rfl, rfl, fun asg => ⟨rfl, rfl⟩⟩
  have hv : values (assign0 Real.pi) [some var0] [0] = .ok [Real.pi] := values_cons.2 ⟨_, _, rfl, eval_var0 _, rfl⟩
  simp [SymOp.instantiate, hv, Res.bind, check, parseU1, n1, n2, inPlace, lift]

/-! ### Equality -/

theorem eqLoop_refl (l : List (Option Symbolic)) : eqLoop l l = .ok true := by
  induction l with
  | nil => rfl
  | cons s l ih =>
    cases s with
    | none => exact ih
    | some e =>
      have : e.eq e := ⟨rfl, rfl, fun i x y hx hy => by
        rw [hx] at hy; cases hy; rw [sub_self, abs_zero]; unfold Sym.tol; positivity⟩
      simp [eqLoop, this]

/-- **C95.** An operation equals itself. -/
theorem c95_equals_refl (f : ℕ → ℕ) (o : SymOp) : o.equals f f o = .ok true := by
  rw [SymOp.equals]
  cases h : o.isStandard with
  | false => simp [eqLoop_refl]
  | true =>
    have : StdOp.equals f f o.toStd o.toStd = true := by simp [StdOp.equals]
    simp [this]

/-- **C95.** Operations with symbols are equal though their types, controls and targets are not, and though their further parameters
are not: only the first symbol is compared. -/
theorem c95_equals_unsound :
    SymOp.equals id id ⟨rx, [0], [some var0], ∅, [0]⟩ ⟨rz, [0], [some var0], {(2, true)}, [1]⟩ = .ok true ∧
    SymOp.equals id id ⟨u, [0, 1, 2], [some var0, none, none], ∅, [0]⟩ ⟨u, [0, 3, 4], [some var0, none, none], ∅, [0]⟩ = .ok true := by
  have h := eqLoop_refl [some var0]
  have h' := eqLoop_refl [some var0, none, none]
  constructor
  · simpa [SymOp.equals, SymOp.isStandard] using h
  · simpa [SymOp.equals, SymOp.isStandard] using h'

/-! ### Circuits -/

/-- **C95.** An instantiated circuit is free of variables.

Missing from C95: operations within compound operations are not instantiated (`c95_nested`), so these must be free of variables. -/
theorem c95_variable_free_partial {ops ops' : List COp} (h : instantiateAll tol nr asg ops = .ok ops')
    (hc : ∀ l, COp.compound l ∈ ops → COp.symbolicL l = false) : variableFree ops' = true := by
  induction ops generalizing ops' with
  | nil => rw [instantiateAll] at h; cases h; rfl
  | cons o ops ih =>
    rw [instantiateAll] at h
    obtain ⟨o', h1, h⟩ := bind_ok h
    obtain ⟨l', h2, h⟩ := bind_ok h
    cases h
    have ih' := ih h2 fun l hl => hc l (List.mem_cons_of_mem _ hl)
    have ho : o'.symbolic = false := by
      cases o with
      | std s => rw [COp.instantiate] at h1; cases h1; rw [COp.symbolic]; simp
      | compound l => rw [COp.instantiate] at h1; cases h1; rw [COp.symbolic]; exact hc l List.mem_cons_self; simp
      | symb s =>
        rw [COp.instantiate] at h1
        obtain ⟨s', h3, h1⟩ := bind_ok h1
        cases h1
        have hst : s'.isStandard = true := by
          rw [SymOp.instantiate] at h3
          obtain ⟨vs, -, h3⟩ := bind_ok h3
          split_ifs at h3
          obtain ⟨r, -, h3⟩ := bind_ok h3
          cases h3
          simp [SymOp.isStandard]
        rw [if_pos hst, COp.symbolic]
    rw [variableFree, COp.symbolicL, ho, Bool.false_or]
    exact ih'

/-- **C95.** A symbol within a compound operation stays. -/
theorem c95_nested (a : ℝ) :
    instantiateAll tol nr (assign0 a) [.compound [.symb ⟨rx, [0], [some var0], ∅, [0]⟩]] =
      .ok [.compound [.symb ⟨rx, [0], [some var0], ∅, [0]⟩]] ∧
    variableFree [.compound [.symb ⟨rx, [0], [some var0], ∅, [0]⟩]] = false := by
  constructor
  · simp [instantiateAll, COp.instantiate, Res.bind]
  · simp [variableFree, COp.symbolicL, COp.symbolic, SymOp.isStandard]

/-- A circuit of `RX(x)` and a gate. -/
example (a : ℝ) : instantiateAll tol nr (assign0 a) [.symb ⟨rx, [0], [some var0], ∅, [0]⟩, .std ⟨.x, [], ∅, [1]⟩] =
    .ok [.std ⟨rx, [a], ∅, [0]⟩, .std ⟨.x, [], ∅, [1]⟩] := by
  have hv : values (assign0 a) [some var0] [0] = .ok [a] := values_cons.2 ⟨_, _, rfl, eval_var0 _, rfl⟩
  simp [instantiateAll, COp.instantiate, SymOp.instantiate, hv, Res.bind, check, SymOp.isStandard, SymOp.toStd]

end MQT.IR.Symb
