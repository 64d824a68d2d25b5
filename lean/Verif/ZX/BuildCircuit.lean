/-
What `buildFunctionality` (FunctionalityConstruction.cpp 607-624) makes of a circuit (`Verif/ZX/Build.lean`).
-/
import Verif.ZX.BuildGates

set_option autoImplicit false
set_option linter.unusedSimpArgs false

noncomputable section

open Classical

open Function (update)

namespace MQT.ZX

open MQT.IR MQT.Opt Diagram MQT.IR.Layout
open Diagram hiding phase

/-! ### Specification -/

/-- The value of a parameter under an assignment of the variables. -/
def Param.value (ρ : ℕ → ℝ) : Param → ℝ
  | .num x => x
  | .symb t c => (t.sum fun v k => k * ρ v) + c

namespace Build

/-- The qubits after `p`. -/
def wire (p : PMap) (q : ℕ) : ℕ := (p q).getD 0

/-- A gate with numbers for parameters that are within the accuracy of `PiRational`, on the wires of the diagram. -/
def Reads (p : PMap) (ρ : ℕ → ℝ) (o : StdOp Param) (o' : StdOp ℝ) : Prop :=
  ∃ as, List.Forall₂ (fun x a => |a - Param.value ρ x| ≤ Real.pi / 10 ^ 9) o.params as ∧
    o' = ⟨o.type, as, (o.relabel (wire p)).controls, (o.relabel (wire p)).targets⟩

/-- Gates that are translated as they should: distinct qubits, as many as the gate has, controls that are positive; not
ECR and the XX±YY gates. -/
structure Fits (o : StdOp Param) : Prop where
  wf : o.WF
  pos : ∀ c ∈ o.controls, c.2 = true
  arity : o.type = .barrier ∨ (o.type.isSingleQubitGate = true ∧ o.targets.length = 1) ∨
    (o.type.isTwoQubitGate = true ∧ o.targets.length = 2)
  ty : o.type ≠ .ecr ∧ o.type ≠ .xxplusyy ∧ o.type ≠ .xxminusyy

/-- Parameters that are numbers. -/
def Numeric (o : StdOp Param) : Prop := ∀ x ∈ o.params, ∃ r, x = Param.num r

/-- Gates whose global phase is accounted for: parameters are numbers or expressions with variables, and the type is
not RX, RY, Y, U2 or U. -/
def Tracked (o : StdOp Param) : Prop :=
  o.type ∉ [OpType.rx, .ry, .y, .u2, .u] ∧ ∀ x ∈ o.params, (∃ r, x = Param.num r) ∨ ∃ t c, t ≠ 0 ∧ x = Param.symb t c

/-- The gates of a circuit in order; `none` if there are operations that are not unitary. -/
def gates : List (Op Param) → Option (List (StdOp Param))
  | [] => some []
  | .std o :: r => (gates r).map (o :: ·)
  | .compound ops _ :: r => (gates ops).bind fun a => (gates r).map (a ++ ·)
  | .measure _ _ :: _ => none
  | .reset _ :: _ => none
  | .classic _ _ :: _ => none
termination_by l => sizeOf l

/-! ### Parameters -/

theorem conv_near {t : ℕ →₀ ℝ} {x : ℝ} {φ : Phase} (e : Param.conv t x = .ok φ) : φ.const.InRange ∧ φ.sym = t ∧
    ∃ k : ℤ, ∀ ρ, |φ.rad ρ - k * (2 * Real.pi) - ((t.sum fun v k => k * ρ v) + x)| ≤ Real.pi / 10 ^ 9 := by
  unfold Param.conv at e
  obtain ⟨c, e1, e2⟩ := bind_ok e
  injection e2 with e2
  subst e2
  obtain ⟨h1, k, h2⟩ := PiRational.ofReal_spec e1
  refine ⟨h1, rfl, k, fun ρ => ?_⟩
  have hp := Real.pi_pos
  unfold Phase.rad
  rw [show (t.sum fun v k => k * ρ v) + (c.frac : ℝ) * Real.pi - k * (2 * Real.pi) - ((t.sum fun v k => k * ρ v) + x) =
    Real.pi * (c.frac - (x / Real.pi + 2 * k)) by field_simp; ring, abs_mul, abs_of_pos hp]
  calc _ ≤ Real.pi * (1 / 10 ^ 9) := mul_le_mul_of_nonneg_left h2 hp.le
    _ = _ := by ring

theorem E_shift (x : ℝ) (k : ℤ) : E (x - k * (2 * Real.pi)) = E x := by
  have := Phase.exp_two_pi x (-k)
  unfold E
  rw [← this]
  congr 2
  push_cast
  ring

theorem parse_near {x : Param} {φ : Phase} (e : x.parse = .ok φ) : φ.const.InRange ∧
    ∃ a : (ℕ → ℝ) → ℝ, (∀ ρ, |a ρ - x.value ρ| ≤ Real.pi / 10 ^ 9) ∧ ∀ ρ, φ.u ρ = E (a ρ) := by
  have key : ∀ t y, Param.conv t y = .ok φ → φ.const.InRange ∧
      ∃ a : (ℕ → ℝ) → ℝ, (∀ ρ, |a ρ - ((t.sum fun v k => k * ρ v) + y)| ≤ Real.pi / 10 ^ 9) ∧ ∀ ρ, φ.u ρ = E (a ρ) := by
    intro t y e
    obtain ⟨h1, -, k, h2⟩ := conv_near e
    exact ⟨h1, fun ρ => φ.rad ρ - k * (2 * Real.pi), h2, fun ρ => (E_shift _ k).symm⟩
  cases x with
  | num x => have := key 0 x e; simpa [Param.value] using this
  | symb t c => exact key t c e

/-! ### Steps -/

/-- What a part of the construction does: with `U` the meaning of the gates, the state of the wires is changed by a
multiple of `U`; the multiple is accounted for up to the accuracy of `PiRational` if the gates are tracked. -/
def Runs (n : ℕ) (p : PMap) (b b' : Build) (os : List (StdOp Param)) : Prop :=
  b'.WB n ∧ ∃ (U : (ℕ → ℝ) → State → State) (z : (ℕ → ℝ) → ℂ) (k : ℝ), 0 < k ∧
    (∀ ρ, ∃ os', List.Forall₂ (Reads p ρ) os os' ∧ denoteSeq os' = some (U ρ)) ∧
    (∀ ρ c ψ, U ρ (phase c ψ) = phase c (U ρ ψ)) ∧
    (∀ ρ, z ρ ≠ 0) ∧
    ((∀ o ∈ os, Tracked o) → ∀ ρ, ∃ (δ : ℝ) (m : ℤ), |δ| ≤ os.length * (2 * Real.pi / 10 ^ 9) ∧ z ρ = E (δ + m * Real.pi) ∧
      ((∀ o ∈ os, Numeric o) → m = 0)) ∧
    ∀ ρ β, b'.amp n ρ β = phase k (phase (z ρ) (U ρ (b.amp n ρ β)))

theorem Runs.nil {n : ℕ} {p : PMap} {b : Build} (h : b.WB n) : Runs n p b b [] :=
  ⟨h, fun _ ψ => ψ, fun _ => 1, 1, one_pos, fun ρ => ⟨[], .nil, rfl⟩, fun _ _ _ => rfl, fun _ => one_ne_zero,
    fun _ ρ => ⟨0, 0, by simp, by simp [E_zero], fun _ => rfl⟩, fun ρ β => by rw [phase_one, Complex.ofReal_one, phase_one]⟩

theorem Runs.append {n : ℕ} {p : PMap} {b b1 b2 : Build} {l m : List (StdOp Param)} (h1 : Runs n p b b1 l)
    (h2 : Runs n p b1 b2 m) : Runs n p b b2 (l ++ m) := by
  obtain ⟨w1, U1, z1, k1, p1, d1, m1, n1, t1, a1⟩ := h1
  obtain ⟨w2, U2, z2, k2, p2, d2, m2, n2, t2, a2⟩ := h2
  refine ⟨w2, fun ρ ψ => U2 ρ (U1 ρ ψ), fun ρ => z2 ρ * z1 ρ, k2 * k1, mul_pos p2 p1, fun ρ => ?_, fun ρ c ψ => ?_,
    fun ρ => mul_ne_zero (n2 ρ) (n1 ρ), fun ht ρ => ?_, fun ρ β => ?_⟩
  · obtain ⟨l', f1, e1⟩ := d1 ρ
    obtain ⟨m', f2, e2⟩ := d2 ρ
    exact ⟨l' ++ m', List.rel_append f1 f2, denoteSeq_append e1 e2⟩
  · show U2 ρ (U1 ρ _) = _
    rw [m1, m2]
  · obtain ⟨δ1, j1, s1, e1, g1⟩ := t1 (fun o ho => ht o (List.mem_append_left _ ho)) ρ
    obtain ⟨δ2, j2, s2, e2, g2⟩ := t2 (fun o ho => ht o (List.mem_append_right _ ho)) ρ
    refine ⟨δ2 + δ1, j2 + j1, ?_, ?_, fun hn => ?_⟩
    · rw [List.length_append]
      push_cast
      calc _ ≤ |δ2| + |δ1| := abs_add_le _ _
        _ ≤ _ := by linarith
    · show z2 ρ * z1 ρ = _
      rw [e1, e2, ← E_add]
      congr 1
      push_cast
      ring
    · rw [g1 fun o ho => hn o (List.mem_append_left _ ho), g2 fun o ho => hn o (List.mem_append_right _ ho), add_zero]
  · rw [a2, a1, m2, m2]
    simp only [phase_phase]
    congr 1
    push_cast
    ring

/-- One gate. -/
theorem runs_of_does {n : ℕ} {p : PMap} {b b' : Build} {o : StdOp Param} {f : Action} {U : (ℕ → ℝ) → State → State}
    {z : (ℕ → ℝ) → ℂ} (hf : Does n f fun ρ ψ => phase (z ρ) (U ρ ψ)) (hb : b.WB n) (e : f b = .ok b')
    (hU : ∀ ρ, ∃ o', Reads p ρ o o' ∧ o'.denote = some (U ρ)) (hz : ∀ ρ, z ρ ≠ 0)
    (ht : Tracked o → ∀ ρ, ∃ (δ : ℝ) (m : ℤ), |δ| ≤ 2 * Real.pi / 10 ^ 9 ∧ z ρ = E (δ + m * Real.pi) ∧ (Numeric o → m = 0)) :
    Runs n p b b' [o] := by
  obtain ⟨w, k, hk, ha⟩ := hf.step b b' hb e
  refine ⟨w, U, z, k, hk, fun ρ => ?_, fun ρ c ψ => ?_, hz, fun h ρ => ?_, ha⟩
  · obtain ⟨o', h1, h2⟩ := hU ρ
    exact ⟨[o'], .cons h1 .nil, denoteSeq_cons_of (r := fun ψ => ψ) h2 rfl⟩
  · have h1 := hf.hom ρ c ψ
    have := congrArg (phase (z ρ)⁻¹) h1
    simp only [phase_phase] at this
    rwa [inv_mul_cancel₀ (hz ρ), phase_one, mul_comm c, ← mul_assoc, inv_mul_cancel₀ (hz ρ), one_mul] at this
  · obtain ⟨δ, m, h1, h2, h3⟩ := ht (h o (by simp)) ρ
    exact ⟨δ, m, by simpa using h1, h2, fun hn => h3 (hn o (by simp))⟩

/-- One gate, with its phase. -/
theorem runs_exact {n : ℕ} {p : PMap} {b b' : Build} {o : StdOp Param} {f : Action} {U : (ℕ → ℝ) → State → State}
    (hf : Does n f U) (hb : b.WB n) (e : f b = .ok b')
    (hU : ∀ ρ, ∃ o', Reads p ρ o o' ∧ o'.denote = some (U ρ)) : Runs n p b b' [o] := by
  refine runs_of_does (z := fun _ => 1) (f := f) (hf.congr fun ρ ψ => (phase_one _).symm) hb e hU (fun _ => one_ne_zero)
    fun _ ρ => ⟨0, 0, ?_, by simp [E_zero], fun _ => rfl⟩
  have := Real.pi_pos
  rw [abs_zero]
  positivity

/-- One gate, with an unknown phase. -/
theorem runs_phase {n : ℕ} {p : PMap} {b b' : Build} {o : StdOp Param} {f : Action} {U : (ℕ → ℝ) → State → State}
    {z : (ℕ → ℝ) → ℂ} (hf : Does n f fun ρ ψ => phase (z ρ) (U ρ ψ)) (hb : b.WB n) (e : f b = .ok b')
    (hU : ∀ ρ, ∃ o', Reads p ρ o o' ∧ o'.denote = some (U ρ)) (hz : ∀ ρ, z ρ ≠ 0) (ht : ¬ Tracked o) :
    Runs n p b b' [o] := runs_of_does hf hb e hU hz fun h => absurd h ht

/-! ### The global phase of rotations -/

/-- A rotation of a tracked gate. -/
theorem rot_phase {o : StdOp Param} {x : Param} (hx : x ∈ o.params) {φ q : Phase} (e : x.parse = .ok φ)
    (er : rotPhase φ (if φ.isConstant then some x.stored else none) = .ok q) {a : (ℕ → ℝ) → ℝ}
    (h1 : ∀ ρ, |a ρ - x.value ρ| ≤ Real.pi / 10 ^ 9) (h2 : ∀ ρ, φ.u ρ = E (a ρ)) (ht : Tracked o) (ρ : ℕ → ℝ) :
    ∃ (δ : ℝ) (m : ℤ), |δ| ≤ 2 * Real.pi / 10 ^ 9 ∧ q.u ρ * E (a ρ / 2) = E (δ + m * Real.pi) ∧ (Numeric o → m = 0) := by
  have hp := Real.pi_pos
  have two : 2 * Real.pi / 10 ^ 9 = Real.pi / 10 ^ 9 + Real.pi / 10 ^ 9 := by ring
  have pos : 0 < Real.pi / 10 ^ 9 := by positivity
  rcases ht.2 x hx with ⟨r, rfl⟩ | ⟨t, c, h0, rfl⟩
  · obtain ⟨-, hs, -⟩ := conv_near (show Param.conv 0 r = .ok φ from e)
    rw [if_pos (show φ.isConstant from hs)] at er
    obtain ⟨-, -, k, hk⟩ := conv_near (show Param.conv 0 (-r / 2) = .ok q from er)
    have hk := hk ρ
    have h1 := h1 ρ
    simp only [Param.value, Finsupp.sum_zero_index, zero_add] at hk h1
    refine ⟨q.rad ρ - k * (2 * Real.pi) - (-r / 2) + (a ρ - r) / 2, 0, ?_, ?_, fun _ => rfl⟩
    · calc _ ≤ |q.rad ρ - k * (2 * Real.pi) - (-r / 2)| + |(a ρ - r) / 2| := abs_add_le _ _
        _ ≤ _ := by rw [abs_div, abs_of_pos (show (0 : ℝ) < 2 by norm_num)]; linarith
    · rw [show q.u ρ = E (q.rad ρ - k * (2 * Real.pi)) from (E_shift _ k).symm, ← E_add]
      congr 1
      push_cast
      ring
  · obtain ⟨-, hs, j, hj⟩ := conv_near (show Param.conv t c = .ok φ from e)
    rw [if_neg (show ¬ φ.isConstant by unfold Phase.isConstant; rw [hs]; exact h0)] at er
    unfold rotPhase at er
    obtain ⟨h, e1, e2⟩ := bind_ok er
    injection e2 with e2
    subst e2
    obtain ⟨-, -, k, hk⟩ := conv_near (show Param.conv _ _ = .ok h from e1)
    have hk := hk ρ
    -- the angle differs from that of the phase by a multiple of the full circle
    have hE : E (a ρ) = E (φ.rad ρ) := (h2 ρ).symm
    obtain ⟨i, hi⟩ := Complex.exp_eq_exp_iff_exists_int.1 hE
    have hi : a ρ = φ.rad ρ + i * (2 * Real.pi) := by
      have := congrArg Complex.im hi
      simpa using this
    have hh : (((1 / 2 : ℝ) • φ.sym).sum fun v k => k * ρ v) + (φ.const.frac : ℝ) * Real.pi / 2 = φ.rad ρ / 2 := by
      unfold Phase.rad
      rw [Finsupp.sum_smul_index (fun _ => by ring)]
      have : (φ.sym.sum fun v c => (1 / 2 : ℝ) * c * ρ v) = (1 / 2) * φ.sym.sum fun v c => c * ρ v := by
        rw [Finsupp.mul_sum]
        apply Finsupp.sum_congr
        intro v _
        ring
      rw [this]
      ring
    rw [hh] at hk
    refine ⟨-(h.rad ρ - k * (2 * Real.pi) - φ.rad ρ / 2), i, ?_, ?_, fun hn => ?_⟩
    · rw [abs_neg]; linarith
    · rw [Phase.u_neg, show h.u ρ = E (h.rad ρ - k * (2 * Real.pi)) from (E_shift _ k).symm, ← E_neg, ← E_add, hi]
      congr 1
      ring
    · obtain ⟨r, hr⟩ := hn _ hx
      cases hr

/-! ### Controls -/

theorem ctrl_nil {o : StdOp Param} (h : ctrlList o = []) : o.controls = ∅ := by
  have h1 : (↑(ctrlList o) : Multiset ℕ) = o.controls.val.map Prod.fst := Multiset.sort_eq _ _
  rw [h] at h1
  have := congrArg Multiset.card h1
  simp only [Multiset.coe_nil, Multiset.card_zero, Multiset.card_map] at this
  exact Finset.card_eq_zero.1 this.symm

theorem ctrl_one {o : StdOp Param} (hp : ∀ c ∈ o.controls, c.2 = true) {c : ℕ} (h : ctrlList o = [c]) :
    o.controls = {(c, true)} := by
  have h1 : (↑(ctrlList o) : Multiset ℕ) = o.controls.val.map Prod.fst := Multiset.sort_eq _ _
  rw [h] at h1
  have h2 := congrArg Multiset.card h1
  simp only [Multiset.coe_singleton, Multiset.card_singleton, Multiset.card_map] at h2
  obtain ⟨d, hd⟩ := Finset.card_eq_one.1 h2.symm
  have hm := hp d (by rw [hd]; simp)
  rw [hd] at h1 ⊢
  simp at h1
  rw [h1, ← hm]

theorem ctrl_two {o : StdOp Param} (hp : ∀ c ∈ o.controls, c.2 = true) {c0 c1 : ℕ} (h : ctrlList o = [c0, c1]) :
    o.controls = {(c0, true), (c1, true)} ∧ c0 ≠ c1 := by
  have h1 : (↑(ctrlList o) : Multiset ℕ) = o.controls.val.map Prod.fst := Multiset.sort_eq _ _
  rw [h] at h1
  have hmem : ∀ q, q = c0 ∨ q = c1 ↔ (q, true) ∈ o.controls := by
    intro q
    have : q ∈ (↑[c0, c1] : Multiset ℕ) ↔ q ∈ o.controls.val.map Prod.fst := by rw [h1]
    simp only [Multiset.mem_coe, List.mem_cons, List.not_mem_nil, or_false, Multiset.mem_map, Finset.mem_val] at this
    rw [this]
    constructor
    · rintro ⟨d, hd, rfl⟩
      have := hp d hd
      rw [← this]
      exact hd
    · intro hd
      exact ⟨_, hd, rfl⟩
  have heq : o.controls = {(c0, true), (c1, true)} := by
    ext ⟨q, s⟩
    simp only [Finset.mem_insert, Finset.mem_singleton, Prod.mk.injEq]
    constructor
    · intro hd
      have hs : s = true := hp _ hd
      subst hs
      rcases (hmem q).2 hd with h | h
      · exact .inl ⟨h, rfl⟩
      · exact .inr ⟨h, rfl⟩
    · rintro (⟨rfl, rfl⟩ | ⟨rfl, rfl⟩)
      · exact (hmem _).1 (.inl rfl)
      · exact (hmem _).1 (.inr rfl)
  refine ⟨heq, ?_⟩
  rintro rfl
  have h2 := congrArg Multiset.card h1
  rw [heq] at h2
  simp at h2

/-! ### Operations -/

theorem at_ok {α : Type} {x : Option α} {a : α} (h : at' x = .ok a) : x = some a := by
  cases x with
  | some y => injection h with h; rw [h]
  | none => cases h

theorem param_ok {ps : List Param} {i : ℕ} {φ : Phase} (h : param ps i = .ok φ) : ∃ x, ps[i]? = some x ∧ x.parse = .ok φ := by
  unfold param at h
  obtain ⟨x, h1, h2⟩ := bind_ok h
  exact ⟨x, at_ok h1, h2⟩

theorem withPhase_ok {ps : List Param} {i : ℕ} {f : Phase → Action} {b b' : Build} (h : withPhase ps i f b = .ok b') :
    ∃ x φ, ps[i]? = some x ∧ x.parse = .ok φ ∧ withPhase ps i f = f φ ∧ f φ b = .ok b' := by
  unfold withPhase at h
  obtain ⟨φ, h1, h2⟩ := bind_ok h
  obtain ⟨x, h3, h4⟩ := param_ok h1
  refine ⟨x, φ, h3, h4, ?_, h2⟩
  funext c
  unfold withPhase
  rw [h1]
  rfl

theorem get0 {α : Type} {l : List α} {x : α} (h : l[0]? = some x) : ∃ r, l = x :: r := by
  cases l with
  | nil => cases h
  | cons y r => injection h with h; exact ⟨r, by rw [h]⟩

theorem withParam_ok {ps : List Param} {f : Phase → Option ℝ → Action} {b b' : Build} (h : withParam ps f b = .ok b') :
    ∃ x r φ, ps = x :: r ∧ x.parse = .ok φ ∧ f φ (if φ.isConstant then some x.stored else none) b = .ok b' := by
  obtain ⟨x, φ, h1, h2, -, h3⟩ := withPhase_ok h
  obtain ⟨r, rfl⟩ := get0 h1
  refine ⟨x, r, φ, rfl, h2, ?_⟩
  split_ifs at h3 ⊢ with hc
  · exact h3
  · exact h3

theorem rot_ok {φ : Phase} {un : Option ℝ} {b b' : Build} (h : rot φ un b = .ok b') : ∃ q, rotPhase φ un = .ok q := by
  obtain ⟨q, h1, -⟩ := bind_ok h
  exact ⟨q, h1⟩

theorem last_ok {f g h : Action} {φ : Phase} {un : Option ℝ} {b b' : Build} (e : seq [f, g, h, rot φ un] b = .ok b') :
    ∃ q, rotPhase φ un = .ok q := by
  obtain ⟨_, -, e⟩ := bind_ok e
  obtain ⟨_, -, e⟩ := bind_ok e
  obtain ⟨_, -, e⟩ := bind_ok e
  obtain ⟨_, e, -⟩ := bind_ok e
  exact rot_ok e

/-- Parameters that are read exactly. -/
theorem near_self (ρ : ℕ → ℝ) (ps : List Param) :
    List.Forall₂ (fun x a => |a - Param.value ρ x| ≤ Real.pi / 10 ^ 9) ps (ps.map (Param.value ρ)) := by
  induction ps with
  | nil => exact .nil
  | cons x r ih =>
    refine .cons ?_ ih
    rw [sub_self, abs_zero]
    have := Real.pi_pos
    positivity

section Ops

variable {n : ℕ} {p : PMap} {b b' : Build} {ty : OpType} {ps : List Param} {t t1 q q1 c c' : ℕ}

theorem wire_eq (h : p t = some q) : wire p t = q := by unfold wire; rw [h]; rfl

theorem denote1 (h1 : ty.isSingleQubitGate = true) (hq : p t = some q) {M : Mat1} {as : List ℝ} (hM : gate1 ty as = some M) :
    (⟨ty, as, (StdOp.relabel (wire p) (⟨ty, ps, ∅, [t]⟩ : StdOp Param)).controls,
      (StdOp.relabel (wire p) (⟨ty, ps, ∅, [t]⟩ : StdOp Param)).targets⟩ : StdOp ℝ).denote = some (app1 M q) := by
  rw [StdOp.denote_single_of (q := q) h1 _ hM, ← ctl_empty (app1 M q)]
  · rfl
  · show [wire p t] = [q]
    rw [wire_eq hq]

theorem denote2 (h1 : ty.isTwoQubitGate = true) (hq : p t = some q) (hq1 : p t1 = some q1) {M : Mat2} {as : List ℝ}
    (hM : gate2 ty as = some M) :
    (⟨ty, as, (StdOp.relabel (wire p) (⟨ty, ps, ∅, [t, t1]⟩ : StdOp Param)).controls,
      (StdOp.relabel (wire p) (⟨ty, ps, ∅, [t, t1]⟩ : StdOp Param)).targets⟩ : StdOp ℝ).denote = some (app2 M q q1) := by
  rw [StdOp.denote_two_of (q0 := q) (q1 := q1) h1 _ hM, ← ctl_empty (app2 M q q1)]
  · rfl
  · show [wire p t, wire p t1] = [q, q1]
    rw [wire_eq hq, wire_eq hq1]

theorem denoteC (h1 : ty.isSingleQubitGate = true) (hq : p t = some q) (hc : p c = some c') {M : Mat1} {as : List ℝ}
    (hM : gate1 ty as = some M) :
    (⟨ty, as, (StdOp.relabel (wire p) (⟨ty, ps, {(c, true)}, [t]⟩ : StdOp Param)).controls,
      (StdOp.relabel (wire p) (⟨ty, ps, {(c, true)}, [t]⟩ : StdOp Param)).targets⟩ : StdOp ℝ).denote =
      some (ctl {(c', true)} (app1 M q)) := by
  rw [StdOp.denote_single_of (q := q) h1 _ hM]
  · unfold StdOp.relabel
    simp only [Finset.image_singleton, wire_eq hc]
  · show [wire p t] = [q]
    rw [wire_eq hq]

theorem denoteCC {d d' : ℕ} (h1 : ty.isSingleQubitGate = true) (hq : p t = some q) (hc : p c = some c') (hd : p d = some d')
    {M : Mat1} {as : List ℝ} (hM : gate1 ty as = some M) :
    (⟨ty, as, (StdOp.relabel (wire p) (⟨ty, ps, {(c, true), (d, true)}, [t]⟩ : StdOp Param)).controls,
      (StdOp.relabel (wire p) (⟨ty, ps, {(c, true), (d, true)}, [t]⟩ : StdOp Param)).targets⟩ : StdOp ℝ).denote =
      some (ctl {(c', true), (d', true)} (app1 M q)) := by
  rw [StdOp.denote_single_of (q := q) h1 _ hM]
  · unfold StdOp.relabel
    simp only [Finset.image_insert, Finset.image_singleton, wire_eq hc, wire_eq hd]
  · show [wire p t] = [q]
    rw [wire_eq hq]

/-- Gates on one qubit without controls and parameters. -/
theorem single0 {f : Action} {M : Mat1} (hf : Does n f fun _ => app1 M q) (hb : b.WB n) (e : f b = .ok b')
    (h1 : ty.isSingleQubitGate = true) (hq : p t = some q) (hM : ∀ as, gate1 ty as = some M) :
    Runs n p b b' [⟨ty, ps, ∅, [t]⟩] :=
  runs_exact hf hb e fun ρ => ⟨_, ⟨_, near_self ρ ps, rfl⟩, denote1 h1 hq (hM _)⟩

/-- Gates on two qubits without controls and parameters. -/
theorem double0 {f : Action} {M : Mat2} (hf : Does n f fun _ => app2 M q q1) (hb : b.WB n) (e : f b = .ok b')
    (h1 : ty.isTwoQubitGate = true) (hq : p t = some q) (hq1 : p t1 = some q1) (hM : ∀ as, gate2 ty as = some M) :
    Runs n p b b' [⟨ty, ps, ∅, [t, t1]⟩] :=
  runs_exact hf hb e fun ρ => ⟨_, ⟨_, near_self ρ ps, rfl⟩, denote2 h1 hq hq1 (hM _)⟩

/-- Gates on one qubit with a parameter and a global phase. -/
theorem rot1 {f : Phase → Option ℝ → Action} {M : ℝ → Mat1} (hb : b.WB n) (e : withParam ps f b = .ok b')
    (hf : ∀ {φ r : Phase} {un : Option ℝ} {a : (ℕ → ℝ) → ℝ}, φ.const.InRange → (∀ ρ, φ.u ρ = E (a ρ)) →
      rotPhase φ un = .ok r → Does n (f φ un) fun ρ ψ => phase (r.u ρ * E (a ρ / 2)) (app1 (M (a ρ)) q ψ))
    (hr : ∀ {φ : Phase} {un : Option ℝ} {b b' : Build}, f φ un b = .ok b' → ∃ r, rotPhase φ un = .ok r)
    (h1 : ty.isSingleQubitGate = true) (hq : p t = some q) (hM : ∀ a as, gate1 ty (a :: as) = some (M a)) :
    Runs n p b b' [⟨ty, ps, ∅, [t]⟩] := by
  obtain ⟨x, r, φ, rfl, hx, e1⟩ := withParam_ok e
  obtain ⟨hφ, a, n1, n2⟩ := parse_near hx
  obtain ⟨g, hg⟩ := hr e1
  exact runs_of_does (hf hφ n2 hg) hb e1
    (fun ρ => ⟨_, ⟨a ρ :: r.map (Param.value ρ), .cons (n1 ρ) (near_self ρ r), rfl⟩, denote1 h1 hq (hM _ _)⟩)
    (fun ρ => mul_ne_zero (Phase.u_ne_zero _ _) (E_ne _))
    (rot_phase (by simp) hx hg n1 n2)

/-- Gates on two qubits with a parameter and a global phase. -/
theorem rot2 {f : Phase → Option ℝ → Action} {M : ℝ → Mat2} (hb : b.WB n) (e : withParam ps f b = .ok b')
    (hf : ∀ {φ r : Phase} {un : Option ℝ} {a : (ℕ → ℝ) → ℝ}, φ.const.InRange → (∀ ρ, φ.u ρ = E (a ρ)) →
      rotPhase φ un = .ok r → Does n (f φ un) fun ρ ψ => phase (r.u ρ * E (a ρ / 2)) (app2 (M (a ρ)) q q1 ψ))
    (hr : ∀ {φ : Phase} {un : Option ℝ} {b b' : Build}, f φ un b = .ok b' → ∃ r, rotPhase φ un = .ok r)
    (h1 : ty.isTwoQubitGate = true) (hq : p t = some q) (hq1 : p t1 = some q1)
    (hM : ∀ a as, gate2 ty (a :: as) = some (M a)) :
    Runs n p b b' [⟨ty, ps, ∅, [t, t1]⟩] := by
  obtain ⟨x, r, φ, rfl, hx, e1⟩ := withParam_ok e
  obtain ⟨hφ, a, n1, n2⟩ := parse_near hx
  obtain ⟨g, hg⟩ := hr e1
  exact runs_of_does (hf hφ n2 hg) hb e1
    (fun ρ => ⟨_, ⟨a ρ :: r.map (Param.value ρ), .cons (n1 ρ) (near_self ρ r), rfl⟩, denote2 h1 hq hq1 (hM _ _)⟩)
    (fun ρ => mul_ne_zero (Phase.u_ne_zero _ _) (E_ne _))
    (rot_phase (by simp) hx hg n1 n2)

theorem zMk (φ : Phase) (ρ : ℕ → ℝ) {a : (ℕ → ℝ) → ℝ} (h : φ.u ρ = E (a ρ)) : mat1 1 0 0 (φ.u ρ) = pMat (a ρ) := by
  rw [h, E_eq]; rfl

theorem not_tracked (h : ty ∈ [OpType.rx, .ry, .y, .u2, .u]) {cs : Finset Ctrl} {ts : List ℕ} :
    ¬ Tracked (⟨ty, ps, cs, ts⟩ : StdOp Param) := fun h' => h'.1 h

theorem list2 {ps : List Param} {x0 x1 : Param} (h0 : ps[0]? = some x0) (h1 : ps[1]? = some x1) : ∃ r, ps = x0 :: x1 :: r := by
  obtain ⟨r, rfl⟩ := get0 h0
  obtain ⟨r', rfl⟩ := get0 (l := r) h1
  exact ⟨r', rfl⟩

theorem list3 {ps : List Param} {x0 x1 x2 : Param} (h0 : ps[0]? = some x0) (h1 : ps[1]? = some x1) (h2 : ps[2]? = some x2) :
    ∃ r, ps = x0 :: x1 :: x2 :: r := by
  obtain ⟨r, rfl⟩ := get0 h0
  obtain ⟨r', rfl⟩ := list2 (ps := r) h1 h2
  exact ⟨r', rfl⟩

/-- Gates on one qubit without controls. -/
theorem plain_one (h1 : ty.isSingleQubitGate = true) (hq : p t = some q) (hb : b.WB n)
    {r : Res ℕ} (e : plain ty ps q r b = .ok b') : Runs n p b b' [⟨ty, ps, ∅, [t]⟩] := by
  cases ty <;> first | (cases h1; done) | skip
  case i =>
    injection e with e
    subst e
    refine single0 (f := seq []) (M := mat1 1 0 0 1) ?_ hb rfl rfl hq fun _ => rfl
    refine Does.skip.congr fun ρ ψ => ?_
    rw [← one_eq_mat1, app1_one]
  case h => exact single0 does_had hb e rfl hq fun _ => rfl
  case x => exact single0 does_notGate hb e rfl hq fun _ => rfl
  case y =>
    exact runs_phase does_y hb e (fun ρ => ⟨_, ⟨_, near_self ρ ps, rfl⟩, denote1 rfl hq rfl⟩) (fun _ => by norm_num)
      (not_tracked (by simp))
  case z =>
    refine single0 (M := mat1 1 0 0 (-1)) ((does_z q (rat_inRange (by norm_num))).congr fun ρ ψ => ?_) hb e rfl hq fun _ => rfl
    rw [u_one]
  case s =>
    refine single0 (M := mat1 1 0 0 ⟨0, 1⟩) ((does_z q (rat_inRange (by norm_num))).congr fun ρ ψ => ?_) hb e rfl hq fun _ => rfl
    rw [u_half, I_mk]
  case sdg =>
    refine single0 (M := mat1 1 0 0 ⟨0, -1⟩) ((does_z q (rat_inRange (by norm_num))).congr fun ρ ψ => ?_) hb e rfl hq fun _ => rfl
    rw [u_nhalf, negI_mk]
  case t =>
    refine single0 (M := mat1 1 0 0 ⟨r2, r2⟩) ((does_z q (rat_inRange (by norm_num))).congr fun ρ ψ => ?_) hb e rfl hq fun _ => rfl
    rw [u_quarter]
  case tdg =>
    refine single0 (M := mat1 1 0 0 ⟨r2, -r2⟩) ((does_z q (rat_inRange (by norm_num))).congr fun ρ ψ => ?_) hb e rfl hq
      fun _ => rfl
    rw [u_nquarter]
  case sx => exact single0 does_sx hb e rfl hq fun _ => rfl
  case sxdg => exact single0 does_sxdg hb e rfl hq fun _ => rfl
  case v => cases e
  case vdg => cases e
  case u =>
    obtain ⟨b1, e1, f1⟩ := bind_ok e
    obtain ⟨b2, e2, f2⟩ := bind_ok f1
    obtain ⟨b3, e3, f3⟩ := bind_ok f2
    obtain ⟨b4, e4, f4⟩ := bind_ok f3
    obtain ⟨b5, e5, f5⟩ := bind_ok f4
    obtain ⟨x2, l, g2, p2, w2, -⟩ := withPhase_ok e1
    obtain ⟨x0, θ, g0, p0, w0, -⟩ := withPhase_ok e3
    obtain ⟨x1, f, g1, p1, w1, -⟩ := withPhase_ok e5
    obtain ⟨r, rfl⟩ := list3 g0 g1 g2
    simp only [plain] at e
    rw [w2, w0, w1] at e
    obtain ⟨hl, a, n1, m1⟩ := parse_near p2
    obtain ⟨hf, c, n2, m2⟩ := parse_near p1
    obtain ⟨hθ, d, n3, m3⟩ := parse_near p0
    exact runs_phase (does_u hl hf hθ m1 m2 m3) hb e (fun ρ => ⟨_, ⟨d ρ :: c ρ :: a ρ :: r.map (Param.value ρ),
      .cons (n3 ρ) (.cons (n2 ρ) (.cons (n1 ρ) (near_self ρ r))), rfl⟩, denote1 rfl hq rfl⟩)
      (fun _ => mul_ne_zero Complex.I_ne_zero (E_ne _)) (not_tracked (by simp))
  case u2 =>
    obtain ⟨b1, e1, f1⟩ := bind_ok e
    obtain ⟨b2, e2, f2⟩ := bind_ok f1
    obtain ⟨b3, e3, f3⟩ := bind_ok f2
    obtain ⟨x1, l, g1, p1, w1, -⟩ := withPhase_ok e1
    obtain ⟨x0, f, g0, p0, w0, -⟩ := withPhase_ok e3
    obtain ⟨r, rfl⟩ := list2 g0 g1
    simp only [plain] at e
    rw [w1, w0] at e
    obtain ⟨hl, a, n1, m1⟩ := parse_near p1
    obtain ⟨hf, c, n2, m2⟩ := parse_near p0
    refine runs_phase (does_u2 hl hf m1 m2) hb e (fun ρ => ⟨_, ⟨c ρ :: a ρ :: r.map (Param.value ρ),
      .cons (n2 ρ) (.cons (n1 ρ) (near_self ρ r)), rfl⟩, denote1 rfl hq rfl⟩)
      (fun _ => ?_) (not_tracked (by simp))
    rw [← E_quarter]; exact E_ne _
  case p =>
    obtain ⟨x, φ, g, hx, -, e1⟩ := withPhase_ok e
    obtain ⟨r, rfl⟩ := get0 g
    obtain ⟨hφ, a, n1, n2⟩ := parse_near hx
    refine runs_exact (U := fun ρ => app1 (pMat (a ρ)) q) ((does_z q hφ).congr fun ρ ψ => ?_) hb e1
      fun ρ => ⟨_, ⟨a ρ :: r.map (Param.value ρ), .cons (n1 ρ) (near_self ρ r), rfl⟩, denote1 rfl hq rfl⟩
    rw [zMk φ ρ (n2 ρ)]
  case rx =>
    obtain ⟨x, φ, g, hx, -, e1⟩ := withPhase_ok e
    obtain ⟨r, rfl⟩ := get0 g
    obtain ⟨hφ, a, n1, n2⟩ := parse_near hx
    exact runs_phase (does_rx hφ n2) hb e1 (fun ρ => ⟨_, ⟨a ρ :: r.map (Param.value ρ), .cons (n1 ρ) (near_self ρ r), rfl⟩,
      denote1 rfl hq rfl⟩) (fun ρ => E_ne _) (not_tracked (by simp))
  case ry =>
    obtain ⟨x, r, φ, rfl, hx, e1⟩ := withParam_ok e
    obtain ⟨hφ, a, n1, n2⟩ := parse_near hx
    obtain ⟨_, e2, -⟩ := bind_ok e1
    obtain ⟨g, hg⟩ := rot_ok e2
    exact runs_phase (does_ry hφ n2 hg) hb e1 (fun ρ => ⟨_, ⟨a ρ :: r.map (Param.value ρ), .cons (n1 ρ) (near_self ρ r), rfl⟩,
      denote1 rfl hq rfl⟩) (fun ρ => mul_ne_zero (mul_ne_zero (Phase.u_ne_zero _ _) (E_ne _)) Complex.I_ne_zero)
      (not_tracked (by simp))
  case rz =>
    refine rot1 (M := rzMat) hb e (fun h1 h2 h3 => does_rz h1 h2 h3) (fun e => ?_) rfl hq fun _ _ => rfl
    obtain ⟨_, e2, -⟩ := bind_ok e
    exact rot_ok e2

/-- Gates on two qubits without controls. -/
theorem plain_two (h1 : ty.isTwoQubitGate = true) (h2 : ty ≠ .ecr ∧ ty ≠ .xxplusyy ∧ ty ≠ .xxminusyy) (hq : p t = some q)
    (hq1 : p t1 = some q1) (hne : q ≠ q1) (hb : b.WB n) (e : plain ty ps q (.ok q1) b = .ok b') :
    Runs n p b b' [⟨ty, ps, ∅, [t, t1]⟩] := by
  cases ty <;> first | (cases h1; done) | skip
  case swap => exact double0 (does_swapGate hne) hb e rfl hq hq1 fun _ => rfl
  case iswap => exact double0 (does_iswap hne) hb e rfl hq hq1 fun _ => rfl
  case iswapdg => cases e
  case peres => cases e
  case peresdg => cases e
  case dcx => exact double0 (does_dcx hne) hb e rfl hq hq1 fun _ => rfl
  case ecr => exact absurd rfl h2.1
  case rxx =>
    exact rot2 (M := rxxMat) hb e (fun h1 h2 h3 => does_rxx h1 h2 hne h3) (fun e => last_ok e) rfl hq hq1 fun _ _ => rfl
  case ryy =>
    refine rot2 (M := ryyMat) (f := fun φ un => seq [xSpider q (.ofRat (1 / 2)), xSpider q1 (.ofRat (1 / 2)), rzz φ q q1 un,
      xSpider q1 (Phase.ofRat (1 / 2)).neg, xSpider q (Phase.ofRat (1 / 2)).neg]) hb e (fun h1 h2 h3 => does_ryy h1 h2 hne h3) (fun e => ?_) rfl hq hq1 fun _ _ => rfl
    obtain ⟨_, -, e⟩ := bind_ok e
    obtain ⟨_, -, e⟩ := bind_ok e
    obtain ⟨_, e, -⟩ := bind_ok e
    exact last_ok e
  case rzz =>
    exact rot2 (M := rzzMat) hb e (fun h1 h2 h3 => does_rzz h1 h2 hne h3) (fun e => last_ok e) rfl hq hq1 fun _ _ => rfl
  case rzx =>
    exact rot2 (M := rzxMat) hb e (fun h1 h2 h3 => does_rzx h1 h2 hne h3) (fun e => last_ok e) rfl hq hq1 fun _ _ => rfl
  case xxminusyy => exact absurd rfl h2.2.2
  case xxplusyy => exact absurd rfl h2.2.1

/-- Controlled gates without parameters. -/
theorem ctl0 {f : Action} {M : Mat1} (hf : Does n f fun _ => ctl {(c', true)} (app1 M q)) (hb : b.WB n) (e : f b = .ok b')
    (h1 : ty.isSingleQubitGate = true) (hq : p t = some q) (hc : p c = some c') (hM : ∀ as, gate1 ty as = some M) :
    Runs n p b b' [⟨ty, ps, {(c, true)}, [t]⟩] :=
  runs_exact hf hb e fun ρ => ⟨_, ⟨_, near_self ρ ps, rfl⟩, denoteC h1 hq hc (hM _)⟩

/-- Controlled phases that are known. -/
theorem ctl_phase {x : ℚ} (hx : -3 < x ∧ x ≤ 3) {w : ℂ} (hw : ∀ ρ, (Phase.ofRat x).u ρ = w) (hne : c' ≠ q) (hb : b.WB n)
    (e : cphase (.ofRat x) c' q b = .ok b') (h1 : ty.isSingleQubitGate = true) (hq : p t = some q) (hc : p c = some c')
    (hM : ∀ as, gate1 ty as = some (mat1 1 0 0 w)) : Runs n p b b' [⟨ty, ps, {(c, true)}, [t]⟩] := by
  have e0 := e
  unfold cphase at e
  obtain ⟨h, e1, e⟩ := bind_ok e
  obtain ⟨k, e2, e⟩ := bind_ok e
  refine ctl0 ((does_cphase hne (rat_inRange hx) e1 e2).congr fun ρ ψ => ?_) hb e0 h1 hq hc hM
  rw [hw]

/-- Gates with one control. -/
theorem single_one (h1 : ty.isSingleQubitGate = true) (hq : p t = some q) (hc : p c = some c') (hne : c' ≠ q) (hb : b.WB n)
    (e : single ty ps c' q b = .ok b') : Runs n p b b' [⟨ty, ps, {(c, true)}, [t]⟩] := by
  cases ty <;> first | (cases h1; done) | (cases e; done) | skip
  case i =>
    injection e with e
    subst e
    refine ctl0 (f := seq []) (M := mat1 1 0 0 1) ?_ hb rfl rfl hq hc fun _ => rfl
    refine Does.skip.congr fun ρ ψ => ?_
    rw [← one_eq_mat1, ctl_app1_one]
  case x =>
    exact ctl0 ((does_cnot hne).congr fun ρ ψ => cx_app hne ψ) hb e rfl hq hc fun _ => rfl
  case z => exact ctl0 (does_cz hne) hb e rfl hq hc fun _ => rfl
  case s => exact ctl_phase (by norm_num) (fun ρ => u_half ρ) hne hb e rfl hq hc fun _ => rfl
  case sdg =>
    exact ctl_phase (by norm_num) (fun ρ => (u_nhalf ρ).trans negI_mk.symm) hne hb e rfl hq hc fun _ => rfl
  case t => exact ctl_phase (by norm_num) (fun ρ => u_quarter ρ) hne hb e rfl hq hc fun _ => rfl
  case tdg => exact ctl_phase (by norm_num) (fun ρ => u_nquarter ρ) hne hb e rfl hq hc fun _ => rfl
  case p =>
    obtain ⟨x, φ, g, hx, -, e0⟩ := withPhase_ok e
    obtain ⟨r, rfl⟩ := get0 g
    obtain ⟨hφ, a, n1, n2⟩ := parse_near hx
    have e3 := e0
    unfold cphase at e3
    obtain ⟨h, e1, e3⟩ := bind_ok e3
    obtain ⟨k, e2, -⟩ := bind_ok e3
    refine runs_exact (U := fun ρ => ctl {(c', true)} (app1 (pMat (a ρ)) q)) ((does_cphase hne hφ e1 e2).congr fun ρ ψ => ?_) hb e0
      fun ρ => ⟨_, ⟨a ρ :: r.map (Param.value ρ), .cons (n1 ρ) (near_self ρ r), rfl⟩, denoteC rfl hq hc rfl⟩
    rw [zMk φ ρ (n2 ρ)]

/-- Gates with two controls. -/
theorem double_one {d d' : ℕ} (h1 : ty.isSingleQubitGate = true) (hq : p t = some q) (hc : p c = some c') (hd : p d = some d')
    (hne : c' ≠ q) (hne' : d' ≠ q) (hcd : c' ≠ d') (hb : b.WB n) (e : double ty c' d' q b = .ok b') :
    Runs n p b b' [⟨ty, ps, {(c, true), (d, true)}, [t]⟩] := by
  cases ty <;> first | (cases h1; done) | cases e | skip
  case x => exact runs_exact (does_ccx hcd hne hne') hb e fun ρ => ⟨_, ⟨_, near_self ρ ps, rfl⟩, denoteCC rfl hq hc hd rfl⟩
  case z => exact runs_exact (does_ccz hcd hne hne') hb e fun ρ => ⟨_, ⟨_, near_self ρ ps, rfl⟩, denoteCC rfl hq hc hd rfl⟩

end Ops

/-! ### Circuits -/

theorem front_ok {p : PMap} {t q : ℕ} {r : List ℕ} (h : front p (t :: r) = .ok q) : p t = some q := at_ok h

theorem wire_ne {p : PMap} (hp : Inj p) {t t' q q' : ℕ} (h : p t = some q) (h' : p t' = some q') (hne : t ≠ t') : q ≠ q' := by
  rintro rfl
  exact hne (hp t t' q h h')

theorem parseStd_runs {n : ℕ} {p : PMap} (hp : Inj p) {o : StdOp Param} (ho : Fits o) {b b' : Build} (hb : b.WB n)
    (e : parseStd p o b = .ok b') : Runs n p b b' [o] := by
  unfold parseStd at e
  by_cases hbar : o.type = .barrier
  · rw [if_pos hbar] at e
    injection e with e
    subst e
    refine runs_exact (f := seq []) (U := fun _ ψ => ψ) Does.skip hb rfl fun ρ => ⟨_, ⟨_, near_self ρ _, rfl⟩, ?_⟩
    exact StdOp.denote_barrier hbar
  rw [if_neg hbar] at e
  split at e
  · rename_i hc
    have hc0 := ctrl_nil hc
    replace e := bind_ok e
    obtain ⟨ty, ps, cs, ts⟩ := o
    obtain ⟨q, e1, e2⟩ := e
    simp only at hc0 e2 e1 hbar
    subst hc0
    rcases ho.arity with h | ⟨h1, h2⟩ | ⟨h1, h2⟩
    · exact absurd h hbar
    · obtain ⟨t, rfl⟩ := List.length_eq_one_iff.1 h2
      exact plain_one h1 (front_ok e1) hb e2
    · obtain ⟨t, t1, rfl⟩ := List.length_eq_two.1 h2
      have hne : t ≠ t1 := by
        have := ho.wf.nodup
        simp only [List.nodup_cons, List.mem_singleton] at this
        exact this.1
      have hq := front_ok e1
      cases h1' : p t1 with
      | none =>
        exfalso
        have : second p [t, t1] = .throw := by
          show at' (p t1) = _
          rw [h1']; rfl
        rw [this] at e2
        cases ty <;> first | (cases h1; done) | cases e2
      | some q1 =>
        have : second p [t, t1] = .ok q1 := by
          show at' (p t1) = _
          rw [h1']; rfl
        rw [this] at e2
        exact plain_two h1 ho.ty hq h1' (wire_ne hp hq h1' hne) hb e2
  · rename_i c hc
    have hc1 := ctrl_one ho.pos hc
    split_ifs at e with hl
    obtain ⟨q, e1, e'⟩ := bind_ok e
    obtain ⟨c', e2, e3⟩ := bind_ok e'
    clear e' e
    obtain ⟨ty, ps, cs, ts⟩ := o
    simp only at hc1 e3 e1 hbar hl
    subst hc1
    obtain ⟨t, rfl⟩ := List.length_eq_one_iff.1 hl
    rcases ho.arity with h | ⟨h1, h2⟩ | ⟨h1, h2⟩
    · exact absurd h hbar
    · have hd := ho.wf.disj t (by simp)
      simp only [ctrlQubits, Finset.image_singleton, Finset.mem_singleton] at hd
      exact single_one h1 (front_ok e1) (at_ok e2) (wire_ne hp (at_ok e2) (front_ok e1) (Ne.symm hd)) hb e3
    · cases h2
  · rename_i c d hc
    obtain ⟨hc2, hcd⟩ := ctrl_two ho.pos hc
    obtain ⟨q, e1, e'⟩ := bind_ok e
    obtain ⟨c', e2, e''⟩ := bind_ok e'
    obtain ⟨d', e3, e4⟩ := bind_ok e''
    clear e e' e''
    obtain ⟨ty, ps, cs, ts⟩ := o
    simp only at hc2 e4 e1 hbar
    subst hc2
    rcases ho.arity with h | ⟨h1, h2⟩ | ⟨h1, h2⟩
    · exact absurd h hbar
    · obtain ⟨t, rfl⟩ := List.length_eq_one_iff.1 h2
      have hd := ho.wf.disj t (by simp)
      simp only [ctrlQubits, Finset.image_insert, Finset.image_singleton, Finset.mem_insert, Finset.mem_singleton, not_or] at hd
      have hq := front_ok e1
      exact double_one h1 hq (at_ok e2) (at_ok e3) (wire_ne hp (at_ok e2) hq (Ne.symm hd.1))
        (wire_ne hp (at_ok e3) hq (Ne.symm hd.2)) (wire_ne hp (at_ok e2) (at_ok e3) hcd) hb e4
    · exfalso
      simp only at h1
      cases ty <;> first | (cases h1; done) | cases e4
  · cases e

/-- A controlled X: its control and target. -/
theorem isCX_ok {p : PMap} {o : Op Param} {a : StdOp Param} (h : isCX o = some a) (hf : Fits a) {t : ℕ}
    (ht : front p a.targets = .ok t) {c : ℕ} (hc : front p (ctrlList a) = .ok c) : o = .std a ∧ ∃ c0 t0 ps,
      a = ⟨.x, ps, {(c0, true)}, [t0]⟩ ∧ p c0 = some c ∧ p t0 = some t ∧ c0 ≠ t0 := by
  cases o with
  | std o =>
    unfold isCX at h
    simp only at h
    split_ifs at h with h1
    injection h with h
    subst h
    refine ⟨rfl, ?_⟩
    obtain ⟨ty, ps, cs, ts⟩ := o
    obtain ⟨h1, h2⟩ := h1
    simp only at h1
    subst h1
    have hl : ts.length = 1 := by
      rcases hf.arity with h | ⟨-, h⟩ | ⟨h, -⟩
      · cases h
      · exact h
      · cases h
    obtain ⟨t0, rfl⟩ := List.length_eq_one_iff.1 hl
    have hlen : (ctrlList (⟨.x, ps, cs, [t0]⟩ : StdOp Param)).length = 1 := by
      unfold ctrlList
      rw [Multiset.length_sort, Multiset.card_map]
      exact h2
    obtain ⟨c0, h3⟩ := List.length_eq_one_iff.1 hlen
    have h4 := ctrl_one hf.pos h3
    simp only at h4
    subst h4
    rw [h3] at hc
    have hd := hf.wf.disj t0 (by simp)
    simp only [ctrlQubits, Finset.image_singleton, Finset.mem_singleton] at hd
    exact ⟨c0, t0, ps, rfl, front_ok hc, front_ok ht, Ne.symm hd⟩
  | compound ops k => cases h
  | measure qs cs => cases h
  | reset qs => cases h
  | classic k o => cases h

theorem three_cx {c t : ℕ} (hne : c ≠ t) (ψ : State) : cxState c t (cxState t c (cxState c t ψ)) =
    fun y => ψ (update (update y c (y t)) t (y c)) := by
  refine ext2 (q0 := c) (q1 := t) fun y a b => ?_
  rw [sl2_cx hne, sl2_xc hne, sl2_cx hne, sl2_swap hne]
  cases a <;> cases b <;> rfl

theorem isCX_std {o : Op Param} {s : StdOp Param} (h : isCX o = some s) : o = .std s := by
  cases o with
  | std o =>
    unfold isCX at h
    simp only at h
    split_ifs at h with h1
    injection h with h
    rw [h]
  | compound ops k => cases h
  | measure qs cs => cases h
  | reset qs => cases h
  | classic k o => cases h

/-- What is taken for a swap consists of three gates. -/
theorem swapAt_std {p : PMap} {o o1 o2 : Op Param} {c t : ℕ} (e : swapAt p o o1 o2 = .ok (some (c, t))) :
    ∃ s s1 s2 t1 t2 c1 c2, isCX o = some s ∧ isCX o1 = some s1 ∧ isCX o2 = some s2 ∧
      front p s.targets = .ok t ∧ front p (ctrlList s) = .ok c ∧ front p s1.targets = .ok t1 ∧ front p (ctrlList s1) = .ok c1 ∧
      front p s2.targets = .ok t2 ∧ front p (ctrlList s2) = .ok c2 ∧ c = t1 ∧ t1 = c2 ∧ t = c1 ∧ c1 = t2 := by
  unfold swapAt at e
  cases he : isCX o with
  | none => rw [he] at e; cases e
  | some s =>
    rw [he] at e
    simp only at e
    by_cases hl : s.targets.length = 1
    · rw [if_pos hl] at e
      obtain ⟨t', f1, e1⟩ := bind_ok e
      obtain ⟨c', f2, e2⟩ := bind_ok e1
      obtain ⟨r, f3, e3⟩ := bind_ok e2
      injection e3 with e3
      split_ifs at e3 with hr
      injection e3 with e3
      injection e3 with ec et
      subst ec et hr
      unfold checkSwap at f3
      cases he1 : isCX o1 with
      | none => rw [he1] at f3; cases f3
      | some s1 =>
        cases he2 : isCX o2 with
        | none => rw [he1, he2] at f3; cases f3
        | some s2 =>
          rw [he1, he2] at f3
          simp only at f3
          obtain ⟨t1, g1, f4⟩ := bind_ok f3
          obtain ⟨t2, g2, f5⟩ := bind_ok f4
          obtain ⟨c1, g3, f6⟩ := bind_ok f5
          obtain ⟨c2, g4, f7⟩ := bind_ok f6
          injection f7 with f7
          exact ⟨s, s1, s2, t1, t2, c1, c2, rfl, rfl, rfl, f1, f2, g1, g3, g2, g4, of_decide_eq_true f7⟩
    · rw [if_neg hl] at e; cases e

/-- Three controlled X that are taken for a swap. -/
theorem swapAt_runs {n : ℕ} {p : PMap} (hp : Inj p) {c t : ℕ} {s s1 s2 : StdOp Param}
    (e : swapAt p (.std s) (.std s1) (.std s2) = .ok (some (c, t))) (hs : Fits s) (hs1 : Fits s1) (hs2 : Fits s2)
    {b b' : Build} (hb : b.WB n) (e' : swap t c b = .ok b') : Runs n p b b' [s, s1, s2] := by
  obtain ⟨_, _, _, t1, t2, c1, c2, he, he1, he2, f1, f2, g1, g3, g2, g4, h1, h2, h3, h4⟩ := swapAt_std e
  have i0 := isCX_std he
  have i1 := isCX_std he1
  have i2 := isCX_std he2
  injection i0 with i0
  injection i1 with i1
  injection i2 with i2
  subst i0 i1 i2
  obtain ⟨-, a0, b0, ps0, rfl, p0, q0, d0⟩ := isCX_ok he hs f1 f2
  obtain ⟨-, a1, b1, ps1, rfl, p1, q1, d1⟩ := isCX_ok he1 hs1 g1 g3
  obtain ⟨-, a2, b2, ps2, rfl, p2, q2, d2⟩ := isCX_ok he2 hs2 g2 g4
  have hne : c ≠ t := wire_ne hp p0 q0 d0
  subst h1 h3 h2 h4
  obtain ⟨w, k, hk, ha⟩ := (does_swap hne.symm).step b b' hb e'
  refine ⟨w, fun _ ψ => cxState c t (cxState t c (cxState c t ψ)), fun _ => 1, k, hk, fun ρ => ?_, fun _ _ _ => rfl,
    fun _ => one_ne_zero, fun _ ρ => ⟨0, 0, ?_, by simp [E_zero], fun _ => rfl⟩, fun ρ β => ?_⟩
  · refine ⟨[_, _, _], .cons ⟨_, near_self ρ ps0, rfl⟩ (.cons ⟨_, near_self ρ ps1, rfl⟩ (.cons ⟨_, near_self ρ ps2, rfl⟩ .nil)), ?_⟩
    have k0 := denoteC (ps := ps0) (as := ps0.map (Param.value ρ)) (ty := .x) rfl q0 p0 rfl
    have k1 := denoteC (ps := ps1) (as := ps1.map (Param.value ρ)) (ty := .x) rfl q1 p1 rfl
    have k2 := denoteC (ps := ps2) (as := ps2.map (Param.value ρ)) (ty := .x) rfl q2 p2 rfl
    rw [denoteSeq_cons_of k0 (denoteSeq_cons_of k1 (denoteSeq_cons_of (r := fun ψ => ψ) k2 rfl))]
    congr 1
    funext ψ
    beta_reduce
    rw [cx_app hne, cx_app hne.symm, cx_app hne]
  · rw [abs_zero]
    have := Real.pi_pos
    positivity
  · rw [ha, phase_one]
    beta_reduce
    rw [three_cx hne]
    congr 1
    funext y
    rw [Function.update_comm hne]

theorem gates_cons {o : Op Param} {r : List (Op Param)} {os : List (StdOp Param)} (h : gates (o :: r) = some os) :
    (∃ s os', o = .std s ∧ gates r = some os' ∧ os = s :: os') ∨
      ∃ ops k os1 os', o = .compound ops k ∧ gates ops = some os1 ∧ gates r = some os' ∧ os = os1 ++ os' := by
  cases o with
  | std s =>
    rw [gates] at h
    obtain ⟨os', h1, h2⟩ := Option.map_eq_some_iff.1 h
    exact .inl ⟨s, os', rfl, h1, h2.symm⟩
  | compound ops k =>
    rw [gates] at h
    obtain ⟨os1, h1, h2⟩ := Option.bind_eq_some_iff.1 h
    obtain ⟨os', h3, h4⟩ := Option.map_eq_some_iff.1 h2
    exact .inr ⟨ops, k, os1, os', rfl, h1, h3, h4.symm⟩
  | measure qs cs => rw [gates] at h; cases h
  | reset qs => rw [gates] at h; cases h
  | classic k o => rw [gates] at h; cases h

theorem parseL_runs {n : ℕ} {p : PMap} (hp : Inj p) (ops : List (Op Param)) (b : Build) :
    ∀ {os : List (StdOp Param)} {b' : Build},
    gates ops = some os → (∀ o ∈ os, Fits o) → b.WB n → parseL p ops b = .ok b' → Runs n p b b' os := by
  induction ops, b using parseL.induct with
  | case1 b =>
    intro os b' hg _ hb e
    rw [gates] at hg
    rw [parseL] at e
    injection hg with hg
    injection e with e
    subst hg e
    exact .nil hb
  | case2 ops k r b ih1 ih2 =>
    intro os b' hg hf hb e
    rw [parseL] at e
    obtain ⟨b1, e1, e2⟩ := bind_ok e
    rcases gates_cons hg with ⟨s, os', h, -⟩ | ⟨ops', k', os1, os', h, h1, h2, rfl⟩
    · cases h
    · injection h with h h'
      subst h h'
      have r1 := ih1 h1 (fun o ho => hf o (List.mem_append_left _ ho)) hb e1
      exact r1.append (ih2 _ h2 (fun o ho => hf o (List.mem_append_right _ ho)) r1.1 e2)
  | case3 o o1 o2 r b hno ih1 ih2 =>
    intro os b' hg hf hb e
    rw [parseL] at e
    · obtain ⟨w, e1, e2⟩ := bind_ok e
      cases w with
      | none =>
        obtain ⟨b1, e3, e4⟩ := bind_ok e2
        rcases gates_cons hg with ⟨s, os', rfl, h2, rfl⟩ | ⟨ops', k', os1, os', h, -⟩
        · have r1 := parseStd_runs hp (hf s (by simp)) hb e3
          exact r1.append (ih2 _ h2 (fun o ho => hf o (List.mem_cons_of_mem _ ho)) r1.1 e4)
        · exact absurd h (hno _ _)
      | some ct =>
        obtain ⟨c, t⟩ := ct
        obtain ⟨b1, e3, e4⟩ := bind_ok e2
        obtain ⟨s, s1, s2, -, -, -, -, he, he1, he2, -⟩ := swapAt_std e1
        have i0 := isCX_std he
        have i1 := isCX_std he1
        have i2 := isCX_std he2
        subst i0 i1 i2
        rcases gates_cons hg with ⟨_, l1, h, h1, rfl⟩ | ⟨_, _, _, _, h, -⟩
        swap
        · cases h
        injection h with h
        subst h
        rcases gates_cons h1 with ⟨_, l2, h, h2, rfl⟩ | ⟨_, _, _, _, h, -⟩
        swap
        · cases h
        injection h with h
        subst h
        rcases gates_cons h2 with ⟨_, l3, h, h3, rfl⟩ | ⟨_, _, _, _, h, -⟩
        swap
        · cases h
        injection h with h
        subst h
        have r1 := swapAt_runs hp e1 (hf s (by simp)) (hf s1 (by simp)) (hf s2 (by simp)) hb e3
        exact r1.append (ih1 _ h3 (fun o ho => hf o (by simp [ho])) r1.1 e4)
    · exact hno
  | case4 o r b hno1 hno2 ih =>
    intro os b' hg hf hb e
    rw [parseL] at e
    · obtain ⟨b1, e3, e4⟩ := bind_ok e
      rcases gates_cons hg with ⟨s, os', rfl, h2, rfl⟩ | ⟨ops', k', os1, os', h, -⟩
      · have r1 := parseStd_runs hp (hf s (by simp)) hb e3
        exact r1.append (ih _ h2 (fun o ho => hf o (List.mem_cons_of_mem _ ho)) r1.1 e4)
      · exact absurd h (hno1 _ _)
    · exact hno1
    · exact hno2

end Build

end MQT.ZX
