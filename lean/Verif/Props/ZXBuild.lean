/-
Property C84: ZX diagrams from circuits (`FunctionalityConstruction::buildFunctionality`, `transformableToZX`).
-/
import Verif.ZX.BuildTotal
import Verif.Props.ZXRules

set_option autoImplicit false

noncomputable section

open Classical

open Function (update)

namespace MQT.ZX

open MQT.IR MQT.Opt Diagram MQT.IR.Layout Build
open Diagram hiding phase

namespace BuildProps

/-! ### The linear map of the diagram -/

/-- **C84.** The diagram is well formed, and its matrix entries are those of the circuit times a number `k z` that is not
zero.  `k` is positive, and `z` is `exp(iδ)` up to sign with a small `δ` if all gates are `Tracked`; without symbolic
parameters the sign is right, too.
Missing from C84: ECR and XX±YY gates (`c84_ecr`, `c84_xxplusyy`), negative controls (`c84_negative`); the global phases of RX, RY, Y, U2
and U gates (`c84_y`), and of symbolic parameters without variables (`c84_constant`). -/
theorem c84_build_partial {n : ℕ} {p : PMap} (hp : Inj p) {ops : List (Op Param)} {D : Diagram} (e : build n p ops = .ok D)
    {os : List (StdOp Param)} (hg : gates ops = some os) (hf : ∀ o ∈ os, Fits o) :
    D.Good ∧ D.inputs = List.range n ∧ D.outputs = (List.range n).map (n + ·) ∧
    ∃ (U : (ℕ → ℝ) → State → State) (z : (ℕ → ℝ) → ℂ) (k : ℝ), 0 < k ∧
    (∀ ρ, ∃ os', List.Forall₂ (Reads p ρ) os os' ∧ denoteSeq os' = some (U ρ)) ∧
    (∀ ρ, z ρ ≠ 0) ∧
    ((∀ o ∈ os, Tracked o) → ∀ ρ, ∃ (δ : ℝ) (m : ℤ), |δ| ≤ os.length * (2 * Real.pi / 10 ^ 9) ∧
      z ρ = Complex.exp (((δ + m * Real.pi : ℝ) : ℂ) * Complex.I) ∧ ((∀ o ∈ os, Numeric o) → m = 0)) ∧
    ∀ ρ β, val ρ D β = k * (z ρ * U ρ (cyl n β) fun q => β (n + q)) := by
  obtain ⟨h1, h2, h3, -, h4⟩ := build_spec hp e hg hf
  exact ⟨h1, h2, h3, h4⟩

/-- **C84.** The same after `interiorCliffordSimp`.
Missing from C84: as for `c84_build_partial`. -/
theorem c84_simplified_partial {n : ℕ} (hn : 0 < n) {p : PMap} (hp : Inj p) {ops : List (Op Param)} {D : Diagram}
    (e : build n p ops = .ok D) {os : List (StdOp Param)} (hg : gates ops = some os) (hf : ∀ o ∈ os, Fits o) {f : ℕ}
    (hk : D.verts.card < f) :
    ∃ D' m, interiorCliffordSimp f D = .done D' m ∧ D'.InteriorClifford ∧
    D'.inputs = List.range n ∧ D'.outputs = (List.range n).map (n + ·) ∧
    ∀ ρ, ∃ os' U c, List.Forall₂ (Reads p ρ) os os' ∧ denoteSeq os' = some U ∧ c ≠ 0 ∧
      ∀ β, val ρ D' β = c * U (cyl n β) fun q => β (n + q) := by
  obtain ⟨h1, h2, h3, hs, U, z, k, hk0, hU, hz, -, hv⟩ := build_spec hp e hg hf
  obtain ⟨D', m, e', hr, ⟨i1, i2, k', hk', hv'⟩, hc, -⟩ := c74_interiorClifford (k := f) ⟨h1, by omega⟩ hk
  refine ⟨D', m, e', hc, i1.trans h2, i2.trans h3, fun ρ => ?_⟩
  obtain ⟨os', r1, r2⟩ := hU ρ
  have hk'0 : (k' : ℂ) ≠ 0 := by exact_mod_cast hk'.ne'
  refine ⟨os', U ρ, (k' : ℂ)⁻¹ * (k * z ρ), r1, r2, ?_, fun β => ?_⟩
  · exact mul_ne_zero (inv_ne_zero hk'0) (mul_ne_zero (by exact_mod_cast hk0.ne') (hz ρ))
  · have h5 := hv' ρ β
    rw [hv ρ β] at h5
    rw [mul_assoc, mul_assoc, h5, ← mul_assoc, inv_mul_cancel₀ hk'0, one_mul]

/-! ### When it returns -/

/-- **C84.** Circuits accepted by `transformableToZX` are transformed without exception or undefined behaviour.
Missing from C84: global phase gates (`c84_gphase`), XX±YY gates, and parameters that are tiny without being zero, or huge
(`c84_tiny`, `c84_huge`). -/
theorem c84_total_partial {n : ℕ} {p : PMap} {ops : List (Op Param)} (h : AbleL n p ops) (ht : transformableL ops = true) :
    ∃ D, build n p ops = .ok D := build_tot h ht

/-- **C84.** Circuits not accepted by `transformableToZX` are not transformed.
Missing from C84: X gates with a number of targets other than one. -/
theorem c84_rejected_partial {n : ℕ} {p : PMap} {ops : List (Op Param)} {os : List (StdOp Param)}
    (hg : gates ops = some os) (hx : ∀ o ∈ os, o.type = .x → o.targets.length = 1) (ht : transformableL ops = false) (D : Diagram) :
    build n p ops ≠ .ok D := by
  intro e
  rw [build_transformable hg hx e] at ht
  cases ht

/-! ### An example -/

def hOp (q : ℕ) : StdOp Param := ⟨.h, [], ∅, [q]⟩
def cOp (c t : ℕ) : StdOp Param := ⟨.x, [], {(c, true)}, [t]⟩
def pOp (x : Param) (c t : ℕ) : StdOp Param := ⟨.p, [x], {(c, true)}, [t]⟩

theorem hOp_fits (q : ℕ) : Fits (hOp q) :=
  ⟨⟨by simp [hOp], by simp [hOp, ctrlQubits]⟩, by simp [hOp], .inr (.inl ⟨rfl, rfl⟩), by simp [hOp]⟩
theorem cOp_fits {c t : ℕ} (h : c ≠ t) : Fits (cOp c t) :=
  ⟨⟨by simp [cOp], by simp [cOp, ctrlQubits, h.symm]⟩, by simp [cOp], .inr (.inl ⟨rfl, rfl⟩), by simp [cOp]⟩
theorem hOp_able {n q : ℕ} (hq : q < n) : Able n some (hOp q) :=
  ⟨by simp [hOp], by simp [hOp, OpType.isTwoQubitGate], by simp [hOp, hq], by simp [hOp], by simp [hOp, needs], by simp [hOp], by simp [hOp]⟩
theorem cOp_able {n c t : ℕ} (hc : c < n) (ht : t < n) : Able n some (cOp c t) :=
  ⟨by simp [cOp], by simp [cOp, OpType.isTwoQubitGate], by simp [cOp, ht], by simp [cOp, hc], by simp [cOp, needs], by simp [cOp], by simp [cOp]⟩

theorem inj_some : Inj some := fun a b v h1 h2 => by
  injection h1 with h1
  injection h2 with h2
  rw [h1, h2]

/-- Whatever the steps for a circuit do, the diagram does. -/
theorem build_of_does {n : ℕ} {p : PMap} {ops : List (Op Param)} {D : Diagram} (e : build n p ops = .ok D) {f : Action}
    (hf : ∀ b b', parseL p ops b = .ok b' → f b = .ok b') {F : (ℕ → ℝ) → State → State} (h : Does n f F) :
    ∃ k : ℝ, 0 < k ∧ ∀ ρ β, val ρ D β = k * F ρ (cyl n β) fun q => β (n + q) := by
  rw [build_eq] at e
  obtain ⟨b, e1, e2⟩ := bind_ok e
  obtain ⟨w, k, hk, ha⟩ := h.step _ b (wires_wb n) (hf _ _ e1)
  rw [w.len] at e2
  obtain ⟨D', e3, c⟩ := connect_ok w n le_rfl
  rw [e3] at e2
  injection e2 with e2
  subst e2
  refine ⟨k, hk, fun ρ β => ?_⟩
  rw [conn_val w c, ha, wires_amp]
  rfl

theorem parse_one {p : PMap} {o : StdOp Param} {b b' : Build} (e : parseL p [.std o] b = .ok b') : parseStd p o b = .ok b' := by
  rw [parseL] at e
  · obtain ⟨b1, e1, e2⟩ := bind_ok e
    unfold parseL at e2
    injection e2 with e2
    subst e2
    exact e1
  · simp
  · simp

/-- A circuit with one gate. -/
theorem build_gate {n : ℕ} {p : PMap} {o : StdOp Param} (ha : Able n p o)
    (ht : transformable1 o.type o.controls.card o.targets.length = true) {f : Action} (hf : ∀ b, parseStd p o b = f b)
    {F : (ℕ → ℝ) → State → State} (h : Does n f F) :
    ∃ D, build n p [.std o] = .ok D ∧ ∃ k : ℝ, 0 < k ∧ ∀ ρ β, val ρ D β = k * F ρ (cyl n β) fun q => β (n + q) := by
  obtain ⟨D, e⟩ := build_tot (n := n) (p := p) (ops := [.std o]) (by simp [AbleL, ha]) (by simp [transformableL, transformable, ht])
  exact ⟨D, e, build_of_does e (fun b b' e => (hf b).symm.trans (parse_one e)) h⟩

theorem plain_gate {p : PMap} {ty : OpType} {ps : List Param} {t q : ℕ} {r : List ℕ} (hty : ty ≠ .barrier) (hq : p t = some q)
    (b : Build) : parseStd p ⟨ty, ps, ∅, t :: r⟩ b = plain ty ps q (second p (t :: r)) b := by
  unfold parseStd
  rw [if_neg hty]
  have : ctrlList (⟨ty, ps, ∅, t :: r⟩ : StdOp Param) = [] := by simp [ctrlList]
  rw [this]
  simp only [front, hq, at']
  rfl

theorem r2_nz : r2 ≠ 0 := by unfold r2; positivity

/-! ### Where the diagram is another one than it should be -/

/-- The wires of two qubits with the bits `a b` at the inputs and `c d` at the outputs. -/
def ends (a b c d : Bool) : ℕ → Bool := fun v => if v = 0 then a else if v = 1 then b else if v = 2 then c else if v = 3 then d else false

theorem cyl_ends (a b c d e f : Bool) (y : Bits) :
    sl2 0 1 y (cyl 2 (ends a b c d)) e f = if e = a ∧ f = b then 1 else 0 := by
  unfold sl2 cyl
  congr 1
  apply propext
  constructor
  · intro h
    have h0 := h 0 (by omega)
    have h1 := h 1 (by omega)
    simp [ends, Function.update] at h0 h1
    exact ⟨h0, h1⟩
  · rintro ⟨rfl, rfl⟩ q hq
    have : q = 0 ∨ q = 1 := by omega
    rcases this with rfl | rfl <;> simp [ends, Function.update]

/-- The bits at the outputs. -/
theorem at_ends (φ : State) (a b c d : Bool) :
    φ (fun q => ends a b c d (2 + q)) = sl2 0 1 (fun q => ends a b c d (2 + q)) φ c d := by
  unfold sl2
  congr 1
  have h0 : (fun q => ends a b c d (2 + q)) 0 = c := by simp [ends]
  have h1 : (fun q => ends a b c d (2 + q)) 1 = d := by simp [ends]
  funext q
  by_cases hq : q = 1
  · subst hq; rw [Function.update_self]; exact h1
  · rw [Function.update_of_ne hq]
    by_cases hq0 : q = 0
    · subst hq0; rw [Function.update_self]; exact h0
    · rw [Function.update_of_ne hq0]

def ecrOp : StdOp Param := ⟨.ecr, [], ∅, [0, 1]⟩

/-- **C84 fails for ECR:** the X of the decomposition is a spider with phase 0 rather than π, and the diagram is not a
multiple of the gate. -/
theorem c84_ecr : transformableL [.std ecrOp] = true ∧ ∃ D, build 2 some [.std ecrOp] = .ok D ∧
    ∃ U, StdOp.denote ⟨.ecr, [], ∅, [0, 1]⟩ = some U ∧
    ¬ ∃ c : ℂ, c ≠ 0 ∧ ∀ ρ β, val ρ D β = c * U (cyl 2 β) fun q => β (2 + q) := by
  refine ⟨by simp [ecrOp, transformableL, transformable, transformable1], ?_⟩
  have hne : (0 : ℕ) ≠ 1 := by decide
  have hq := rat_inRange (q := 1 / 4) (by norm_num)
  have hn : (Phase.ofRat (1 / 4)).neg.const.InRange := Phase.neg_inRange hq
  have ha : Able 2 some ecrOp := ⟨by simp [ecrOp], by simp [ecrOp], by simp [ecrOp], by simp [ecrOp], by simp [ecrOp, needs],
    by simp [ecrOp], by simp [ecrOp]⟩
  obtain ⟨p1, e1⟩ := rotPhase_none (φ := Phase.ofRat (1 / 4)) coarse_quarter.1 coarse_quarter.2
  obtain ⟨p2, e2⟩ := rotPhase_none (φ := (Phase.ofRat (1 / 4)).neg) coarse_neg_quarter.1 hn
  have d1 := does_rzx (n := 2) (q0 := 0) (q1 := 1) hq (a := fun _ => Real.pi / 4)
    (fun ρ => by rw [u_quarter, E_quarter]) hne e1
  have d2 := does_rzx (n := 2) (q0 := 0) (q1 := 1) hn (a := fun _ => -(Real.pi / 4))
    (fun ρ => by rw [Phase.u_neg, u_quarter, E_neg, E_quarter]) hne e2
  have d := d1.cons ((does_x (n := 2) 0 zero_inRange).cons d2.one)
  obtain ⟨D, e, k, hk, hv⟩ := build_gate ha (by decide) (fun b => plain_gate (by decide) rfl b) d
  refine ⟨D, e, _, StdOp.denote_two_of (o := ⟨.ecr, [], ∅, [0, 1]⟩) rfl rfl rfl, ?_⟩
  rintro ⟨c, hc, h⟩
  have h1 := h (fun _ => 0) (ends false false true false)
  rw [hv, at_ends (MQT.IR.phase _ _), at_ends (MQT.IR.ctl _ _ _)] at h1
  simp only [MQT.IR.ctl_empty, sl2_phase, sl2_app2 _ _ _ _ hne, sl2_fst _ _ _ _ hne, cyl_ends] at h1
  simp [rzxMat, mat2, mat1, Phase.u_zero] at h1
  rcases h1 with h1 | h1
  · exact hc h1
  · exact r2_nz (congrArg Complex.re h1)

def negOp (s : Bool) : StdOp Param := ⟨.x, [], {(0, s)}, [1]⟩

theorem negOp_parse (s : Bool) (b : Build) : parseStd some (negOp s) b = cnot 0 1 b := by
  unfold parseStd
  have : ctrlList (negOp s) = [0] := by simp [ctrlList, negOp]
  rw [if_neg (by simp [negOp]), this]
  rfl

/-- **C84 fails for negative controls:** they are taken for positive ones. -/
theorem c84_negative : transformableL [.std (negOp false)] = true ∧ ∃ D, build 2 some [.std (negOp false)] = .ok D ∧
    ∃ U, StdOp.denote ⟨.x, [], {(0, false)}, [1]⟩ = some U ∧
    ¬ ∃ c : ℂ, c ≠ 0 ∧ ∀ ρ β, val ρ D β = c * U (cyl 2 β) fun q => β (2 + q) := by
  refine ⟨by simp [negOp, transformableL, transformable, transformable1], ?_⟩
  have hne : (0 : ℕ) ≠ 1 := by decide
  have ha : Able 2 some (negOp false) := ⟨by simp [negOp], by simp [negOp, OpType.isTwoQubitGate], by simp [negOp], by simp [negOp],
    by simp [negOp, needs], by simp [negOp], by simp [negOp]⟩
  obtain ⟨D, e, k, hk, hv⟩ := build_gate ha (by simp [negOp, transformable1]) (negOp_parse false) (does_cnot hne)
  refine ⟨D, e, _, StdOp.denote_single_of (o := ⟨.x, [], {(0, false)}, [1]⟩) rfl rfl rfl, ?_⟩
  rintro ⟨c, hc, h⟩
  have h1 := h (fun _ => 0) (ends false false false true)
  rw [hv, at_ends (cxState _ _ _), sl2_cx hne, cyl_ends, at_ends (MQT.IR.ctl _ _ _)] at h1
  have h2 : ∀ (y : Bits) (ψ : State), sl2 0 1 y (MQT.IR.ctl {(0, false)} (app1 (mat1 0 1 1 0) 1) ψ) false true =
      sl2 0 1 y (app1 (mat1 0 1 1 0) 1 ψ) false true := by
    intro y ψ
    simp [sl2, MQT.IR.ctl, Sat]
  rw [h2, sl2_snd, cyl_ends, cyl_ends] at h1
  simp [mat1] at h1
  exact hc h1.symm

/-- **C84 fails for the global phase of Y:** it is off by `-1`. -/
theorem c84_y : ∃ D, build 1 some [.std ⟨.y, [], ∅, [0]⟩] = .ok D ∧ ∃ U, StdOp.denote ⟨.y, [], ∅, [0]⟩ = some U ∧
    ∃ k : ℝ, 0 < k ∧ ∀ ρ β, val ρ D β = k * (-1 * U (cyl 1 β) fun q => β (1 + q)) := by
  have ha : Able 1 some (⟨.y, [], ∅, [0]⟩ : StdOp Param) := ⟨by simp, by simp [OpType.isTwoQubitGate], by simp, by simp,
    by simp [needs], by simp, by simp⟩
  obtain ⟨D, e, k, hk, hv⟩ := build_gate ha (by decide) (fun b => plain_gate (by decide) rfl b) (does_y (n := 1) (q := 0))
  refine ⟨D, e, _, StdOp.denote_single_of (o := ⟨.y, [], ∅, [0]⟩) rfl rfl rfl, k, hk, fun ρ β => ?_⟩
  rw [hv]
  simp only [MQT.IR.ctl_empty, MQT.IR.phase]

theorem ofReal_zero : PiRational.ofReal 0 = .ok ⟨0⟩ := by
  unfold PiRational.ofReal
  rw [if_pos (by rw [abs_zero]; unfold PiRational.tol; positivity)]

theorem ofReal_pi : PiRational.ofReal Real.pi = .ok ⟨1⟩ := by
  have h3 := Real.pi_gt_three
  have hr : PiRational.roundAway 1 = 1 := by
    unfold PiRational.roundAway
    rw [if_pos (by norm_num), Int.floor_eq_iff]
    norm_num
  unfold PiRational.ofReal
  rw [if_neg (by rw [abs_of_pos Real.pi_pos]; unfold PiRational.tol; norm_num; linarith)]
  simp only [div_self Real.pi_ne_zero, hr]
  rw [if_pos (by unfold PiRational.tol; norm_num)]
  simp only [PiRational.toInt32]
  rw [if_pos (by norm_num)]
  simp only [PiRational.ofFrac]
  rw [if_neg (by norm_num)]
  congr 1
  have := Phase.modPi_of_inRange (a := ⟨1⟩) (by constructor <;> norm_num)
  simpa using this

/-- **C84 fails for the global phase of expressions without variables:** that of RZ(π) is off by `i`. -/
theorem c84_constant : ∃ D, build 1 some [.std ⟨.rz, [.symb 0 Real.pi], ∅, [0]⟩] = .ok D ∧
    ∃ U, StdOp.denote ⟨.rz, [Real.pi], ∅, [0]⟩ = some U ∧
    ∃ k : ℝ, 0 < k ∧ ∀ ρ β, val ρ D β = k * (Complex.I * U (cyl 1 β) fun q => β (1 + q)) := by
  have hf : PiRational.Fine Real.pi := by
    right
    rw [abs_of_pos Real.pi_pos]
    have := Real.pi_gt_three; have := Real.pi_lt_four
    constructor <;> norm_num <;> linarith
  have ha : Able 1 some (⟨.rz, [.symb 0 Real.pi], ∅, [0]⟩ : StdOp Param) := ⟨by simp, by simp [OpType.isTwoQubitGate], by simp,
    by simp, by simp [needs], by simpa [Param.Fine] using hf, by simp⟩
  have e0 : rotPhase ⟨0, ⟨1⟩⟩ (some 0) = .ok ⟨0, ⟨0⟩⟩ := by
    show (PiRational.ofReal (-0 / 2)).bind _ = _
    rw [neg_zero, zero_div, ofReal_zero]
    rfl
  have hu : ∀ ρ, (⟨0, ⟨1⟩⟩ : Phase).u ρ = E Real.pi := fun ρ => by simp [Phase.u, Phase.rad, E]
  have d := does_rz (n := 1) (q := 0) (φ := ⟨0, ⟨1⟩⟩) (by constructor <;> norm_num) hu e0
  obtain ⟨D, e, k, hk, hv⟩ := build_gate ha (by decide) (fun b => (plain_gate (by decide) rfl b).trans (by
    show ((Param.conv 0 Real.pi).bind fun φ => if φ.isConstant then rz φ 0 (some 0) b else rz φ 0 none b) = _
    unfold Param.conv
    rw [ofReal_pi]
    show (if Phase.isConstant ⟨0, ⟨1⟩⟩ then _ else _) = _
    rw [if_pos (by simp [Phase.isConstant])])) d
  refine ⟨D, e, _, StdOp.denote_single_of (o := ⟨.rz, [Real.pi], ∅, [0]⟩) rfl rfl rfl, k, hk, fun ρ β => ?_⟩
  rw [hv]
  simp only [MQT.IR.ctl_empty, MQT.IR.phase, E_half_pi]
  simp [Phase.u, Phase.rad]

/-- The same with steps that return. -/
theorem build_steps {n : ℕ} {p : PMap} {o : StdOp Param} {f : Action} (hf : ∀ b, parseStd p o b = f b) (ht : Tot n f)
    {F : (ℕ → ℝ) → State → State} (h : Does n f F) :
    ∃ D, build n p [.std o] = .ok D ∧ ∃ k : ℝ, 0 < k ∧ ∀ ρ β, val ρ D β = k * F ρ (cyl n β) fun q => β (n + q) := by
  obtain ⟨b, e, hb⟩ := ht _ (live_wires n)
  have e0 : parseL p [.std o] ⟨wires n n n, List.range n⟩ = .ok b := by
    rw [parseL]
    · show (parseStd p o _).bind _ = _
      rw [hf, e]
      simp [MQT.Res.bind, parseL]
    · simp
    · simp
  obtain ⟨D, e1, -⟩ := connect_tot hb n le_rfl
  have e2 : build n p [.std o] = .ok D := by
    rw [build_eq, e0]
    show connect b b.qs.length = _
    rw [hb.len, e1]
  exact ⟨D, e2, build_of_does e2 (fun b b' e => (hf b).symm.trans (parse_one e)) h⟩

theorem ofReal_half_pi : PiRational.ofReal (Real.pi / 2) = .ok ⟨1 / 2⟩ := by
  have h3 := Real.pi_gt_three
  have hr : PiRational.roundAway 2 = 2 := by
    unfold PiRational.roundAway
    rw [if_pos (by norm_num), Int.floor_eq_iff]
    norm_num
  have hd : Real.pi / (Real.pi / 2) = 2 := by
    have := Real.pi_ne_zero
    field_simp
  unfold PiRational.ofReal
  rw [if_neg (by rw [abs_of_pos (by positivity)]; unfold PiRational.tol; norm_num; linarith)]
  simp only [hd, hr]
  rw [if_pos (by unfold PiRational.tol; norm_num)]
  simp only [PiRational.toInt32]
  rw [if_pos (by norm_num)]
  simp only [PiRational.ofFrac]
  rw [if_neg (by norm_num)]
  congr 1
  have := Phase.modPi_of_inRange (a := ⟨1 / 2⟩) (by constructor <;> norm_num)
  simpa using this

theorem does_rz' {n q : ℕ} {φ p : Phase} {un : Option ℝ} (hr : φ.const.InRange) (e : rotPhase φ un = .ok p) :
    Does n (rz φ q un) fun ρ ψ => phase (p.u ρ) (app1 (mat1 1 0 0 (φ.u ρ)) q ψ) :=
  ((does_rot e).cons (does_z q hr).one).congr fun _ _ => app1_hom ..

theorem tot_rz {n q : ℕ} (hq : q < n) {φ : Phase} {un : Option ℝ} (h : ∃ p, rotPhase φ un = .ok p) : Tot n (rz φ q un) :=
  tot_cons (tot_rot h) (tot_cons (tot_z hq _ _) tot_nil)

theorem tot_ry {n q : ℕ} (hq : q < n) {φ : Phase} {un : Option ℝ} (h : ∃ p, rotPhase φ un = .ok p) : Tot n (ry φ q un) :=
  tot_cons (tot_rot h) (tot_cons (tot_x hq _ _) (tot_cons (tot_z hq _ _) (tot_cons (tot_x hq _ _) (tot_cons (tot_z hq _ _) tot_nil))))

/-- XX+YY with angle π. -/
def xxOp : StdOp Param := ⟨.xxplusyy, [.num Real.pi, .num 0], ∅, [0, 1]⟩

/-- The phases 0 and π/2, as they result from the parameters. -/
def ph (q : ℚ) : Phase := ⟨0, ⟨q⟩⟩

theorem xxOp_parse (b : Build) : parseStd some xxOp b =
    seq [rz (ph 0) 1 (some Real.pi), rz (.ofRat (1 / 2)) 1, rz (.ofRat (-1 / 2)) 0, rx (.ofRat (1 / 2)) 0, rz (.ofRat (1 / 2)) 0,
      cnot 0 1, ry (ph (1 / 2)) 0, ry (ph (1 / 2)) 1, cnot 0 1,
      rz (.ofRat (-1 / 2)) 0, rx (.ofRat (-1 / 2)) 0, rz (.ofRat (1 / 2)) 0,
      rz (ph 0).neg 1 (some (-Real.pi)), rz (Phase.ofRat (1 / 2)).neg 1] b := by
  unfold xxOp
  rw [plain_gate (by decide) rfl b]
  show ((Param.conv 0 Real.pi).bind fun θ => if θ.isConstant then (Param.conv 0 0).bind fun β => xxPlusYY θ β 0 1 (some Real.pi) b
    else (Param.conv 0 0).bind fun β => xxPlusYY θ β 0 1 none b) = _
  unfold Param.conv
  rw [ofReal_pi, ofReal_zero]
  show (if Phase.isConstant ⟨0, ⟨1⟩⟩ then _ else _) = _
  rw [if_pos (by simp [Phase.isConstant])]
  show xxPlusYY ⟨0, ⟨1⟩⟩ (ph 0) 0 1 (some Real.pi) b = _
  unfold xxPlusYY
  have : Phase.half ⟨0, ⟨1⟩⟩ = .ok (ph (1 / 2)) := by
    unfold Phase.half Param.conv
    simp only [Rat.cast_one, one_mul, smul_zero, ofReal_half_pi]
    rfl
  rw [this]
  rfl

/-- **C84 fails for XX+YY:** the diagram is that for the angle `-θ`. -/
theorem c84_xxplusyy : transformableL [.std xxOp] = true ∧ ∃ D, build 2 some [.std xxOp] = .ok D ∧
    ∃ U, StdOp.denote ⟨.xxplusyy, [Real.pi, 0], ∅, [0, 1]⟩ = some U ∧
    ¬ ∃ c : ℂ, c ≠ 0 ∧ ∀ ρ β, val ρ D β = c * U (cyl 2 β) fun q => β (2 + q) := by
  refine ⟨by simp [xxOp, transformableL, transformable, transformable1], ?_⟩
  have hne : (0 : ℕ) ≠ 1 := by decide
  have hpi : PiRational.Fine Real.pi := by
    right
    rw [abs_of_pos Real.pi_pos]
    have := Real.pi_gt_three; have := Real.pi_lt_four
    constructor <;> norm_num <;> linarith
  have hnpi : PiRational.Fine (-Real.pi) := by
    unfold PiRational.Fine
    rw [abs_neg]
    exact hpi
  have z0 : (ph 0).const.InRange := by constructor <;> norm_num [ph]
  have zh : (ph (1 / 2)).const.InRange := by constructor <;> norm_num [ph]
  have i1 := rat_inRange (q := 1 / 2) (by norm_num)
  have i2 := rat_inRange (q := -1 / 2) (by norm_num)
  obtain ⟨p1, e1⟩ := rotPhase_some (φ := ph 0) hpi
  obtain ⟨p2, e2⟩ := rotPhase_none (φ := Phase.ofRat (1 / 2)) coarse_half.1 i1
  obtain ⟨p3, e3⟩ := rotPhase_none (φ := Phase.ofRat (-1 / 2)) coarse_nhalf.1 i2
  obtain ⟨p4, e4⟩ := rotPhase_none (φ := ph (1 / 2)) (.inr (by norm_num [ph])) zh
  obtain ⟨p5, e5⟩ := rotPhase_some (φ := (ph 0).neg) hnpi
  obtain ⟨p6, e6⟩ := rotPhase_none (φ := (Phase.ofRat (1 / 2)).neg) (coarse_neg (by norm_num) (by norm_num)).1 (Phase.neg_inRange i1)
  have h4 : ∀ ρ, (ph (1 / 2)).u ρ = E (Real.pi / 2) := fun ρ => by
    unfold ph Phase.u Phase.rad E
    simp only [Finsupp.sum_zero_index, zero_add]
    congr 3
    push_cast
    ring
  have d := (does_rz' (n := 2) (q := 1) z0 e1).cons <| (does_rz' (n := 2) (q := 1) i1 e2).cons <|
    (does_rz' (n := 2) (q := 0) i2 e3).cons <| (does_x (n := 2) 0 i1).cons <| (does_rz' (n := 2) (q := 0) i1 e2).cons <|
    (does_cnot (n := 2) hne).cons <| (does_ry (n := 2) (q := 0) zh h4 e4).cons <| (does_ry (n := 2) (q := 1) zh h4 e4).cons <|
    (does_cnot (n := 2) hne).cons <| (does_rz' (n := 2) (q := 0) i2 e3).cons <| (does_x (n := 2) 0 i2).cons <|
    (does_rz' (n := 2) (q := 0) i1 e2).cons <| (does_rz' (n := 2) (q := 1) (Phase.neg_inRange z0) e5).cons <|
    (does_rz' (n := 2) (q := 1) (Phase.neg_inRange i1) e6).one
  obtain ⟨D, e, k, hk, hv⟩ := build_steps xxOp_parse (by
    have q0 : 0 < 2 := by decide
    have q1 : 1 < 2 := by decide
    exact tot_cons (tot_rz q1 ⟨_, e1⟩) <| tot_cons (tot_rz q1 ⟨_, e2⟩) <| tot_cons (tot_rz q0 ⟨_, e3⟩) <| tot_cons (tot_x q0 _ _) <|
      tot_cons (tot_rz q0 ⟨_, e2⟩) <| tot_cons (tot_cnot q0 q1) <| tot_cons (tot_ry q0 ⟨_, e4⟩) <| tot_cons (tot_ry q1 ⟨_, e4⟩) <|
      tot_cons (tot_cnot q0 q1) <| tot_cons (tot_rz q0 ⟨_, e3⟩) <| tot_cons (tot_x q0 _ _) <| tot_cons (tot_rz q0 ⟨_, e2⟩) <|
      tot_cons (tot_rz q1 ⟨_, e5⟩) <| tot_cons (tot_rz q1 ⟨_, e6⟩) tot_nil) d
  refine ⟨D, e, _, StdOp.denote_two_of (o := ⟨.xxplusyy, [Real.pi, 0], ∅, [0, 1]⟩) rfl rfl rfl, ?_⟩
  rintro ⟨c, hc, h⟩
  have h1 := h (fun _ => 0) (ends false false false false)
  have h2 := h (fun _ => 0) (ends false true true false)
  simp only [hv, app1_hom, cx_hom, phase_phase, MQT.IR.ctl_empty] at h1 h2
  have hry : ryMat (Real.pi / 2) = mat1 r2 (-r2) r2 r2 := by
    unfold ryMat
    rw [show Real.pi / 2 / 2 = Real.pi / 4 by ring, r2_eq.1, r2_eq.2]
    congr 1
    apply Complex.ext <;> simp
  have hp0 : ∀ ρ, (ph 0).u ρ = 1 := fun ρ => by simp [ph, Phase.u, Phase.rad]
  rw [at_ends (MQT.IR.phase _ _), at_ends (app2 _ _ _ _)] at h1 h2
  simp only [hry, Build.u_half, u_nhalf, Phase.u_neg, hp0, Complex.inv_I, inv_one, sl2_phase, sl2_cx hne, sl2_fst _ _ _ _ hne, sl2_snd,
    sl2_app2 _ _ _ _ hne, cyl_ends] at h1 h2
  generalize Phase.u _ p6 * _ = g at h1 h2
  simp [mat1, mat2, xxPlusYYMat] at h1 h2
  rw [negI_mk] at h2
  have hI := Complex.I_mul_I
  have hr := r2_sqC
  grind

/-! ### Where there is none -/

/-- **C84 fails for global phase gates:** they have no targets, and `getTargets().front()` is undefined. -/
theorem c84_gphase (x : Param) : transformableL [.std ⟨.gphase, [x], ∅, []⟩] = true ∧
    build 1 some [.std ⟨.gphase, [x], ∅, []⟩] = .ub := by
  refine ⟨by simp [transformableL, transformable, transformable1], ?_⟩
  rw [build_eq, parseL]
  · simp [parse1, parseStd, ctrlList, front, MQT.Res.bind]
  · simp
  · simp

theorem build_ub {x : ℝ} (h : PiRational.ofReal x = .ub) : build 1 some [.std ⟨.p, [.num x], ∅, [0]⟩] = .ub := by
  rw [build_eq, parseL]
  · show ((parseStd some ⟨.p, [.num x], ∅, [0]⟩ _).bind _).bind _ = _
    rw [plain_gate (by decide) rfl]
    simp [plain, withPhase, param, Param.parse, Param.conv, h, MQT.Res.bind, at']
  · simp
  · simp

/-- **C84 fails for tiny parameters:** `π / x` does not fit into 32 bits. -/
theorem c84_tiny : transformableL [.std ⟨.p, [.num (Real.pi / 2 ^ 31)], ∅, [0]⟩] = true ∧
    build 1 some [.std ⟨.p, [.num (Real.pi / 2 ^ 31)], ∅, [0]⟩] = .ub := by
  refine ⟨by simp [transformableL, transformable, transformable1], build_ub ?_⟩
  have h3 := Real.pi_gt_three
  have hr : PiRational.roundAway (2 ^ 31) = 2 ^ 31 := by
    unfold PiRational.roundAway
    rw [if_pos (by norm_num), Int.floor_eq_iff]
    norm_num
  have hd : Real.pi / (Real.pi / 2 ^ 31) = 2 ^ 31 := by
    have := Real.pi_ne_zero
    field_simp
  unfold PiRational.ofReal
  rw [if_neg (by rw [abs_of_pos (by positivity)]; unfold PiRational.tol; norm_num; linarith)]
  simp only [hd, hr]
  rw [if_pos (by unfold PiRational.tol; norm_num)]
  simp only [PiRational.toInt32]
  rw [if_neg (by norm_num)]

/-- **C84 fails for huge parameters:** `x / π / 2` does not fit into 32 bits. -/
theorem c84_huge : transformableL [.std ⟨.p, [.num (10 ^ 11)], ∅, [0]⟩] = true ∧
    build 1 some [.std ⟨.p, [.num (10 ^ 11)], ∅, [0]⟩] = .ub := by
  refine ⟨by simp [transformableL, transformable, transformable1], build_ub ?_⟩
  have h3 := Real.pi_gt_three
  have h4 := Real.pi_lt_four
  have hs : Real.pi / 10 ^ 11 < 1 / 2 := by rw [div_lt_iff₀ (by positivity)]; norm_num; linarith
  have hp : (0 : ℝ) < Real.pi / 10 ^ 11 := by positivity
  have hr : PiRational.roundAway (Real.pi / 10 ^ 11) = 0 := by
    unfold PiRational.roundAway
    rw [if_pos hp.le, Int.floor_eq_iff]
    push_cast
    constructor <;> linarith
  have ht : (2 ^ 31 : ℤ) ≤ PiRational.trunc (10 ^ 11 / Real.pi / 2) := by
    unfold PiRational.trunc
    rw [if_pos (by positivity), Int.le_floor, div_div, le_div_iff₀ (by positivity)]
    push_cast
    norm_num
    linarith
  unfold PiRational.ofReal
  rw [if_neg (by rw [abs_of_pos (by positivity)]; unfold PiRational.tol; norm_num)]
  simp only [hr]
  rw [if_neg]
  · simp only [PiRational.toInt32]
    rw [if_neg (by omega)]
  · push_cast
    rw [zero_sub, abs_neg, abs_of_pos hp, not_lt, le_div_iff₀ (by positivity)]
    unfold PiRational.tol
    norm_num
    linarith

/-! ### The example -/

/-- The circuit of a Bell state. -/
def bell : List (Op Param) := [.std (hOp 0), .compound [.std (cOp 0 1)] false]

/-- From `00`, the diagram gives the Bell state. -/
example : ∃ D, build 2 some bell = .ok D ∧ ∀ ρ, ∃ z : ℂ, z ≠ 0 ∧ ∀ c d, val ρ D (ends false false c d) = z * if c = d then 1 else 0 := by
  obtain ⟨D, e⟩ := c84_total_partial (n := 2) (p := some) (ops := bell)
    (by simp [bell, AbleL, hOp_able, cOp_able]) (by simp [bell, hOp, cOp, transformableL, transformable, transformable1])
  have hg : gates bell = some [hOp 0, cOp 0 1] := by simp [bell, gates]
  obtain ⟨-, -, -, U, z, k, hk, hU, hz, -, hv⟩ := c84_build_partial inj_some e hg (by simp [hOp_fits, cOp_fits])
  refine ⟨D, e, fun ρ => ?_⟩
  obtain ⟨os, h1, h2⟩ := hU ρ
  cases h1 with
  | cons r1 h1 =>
  cases h1 with
  | cons r3 h1 =>
  cases h1
  obtain ⟨_, hp1, rfl⟩ := r1
  obtain ⟨_, hp2, rfl⟩ := r3
  cases hp1
  cases hp2
  have hH : StdOp.denote ⟨.h, [], ∅, [0]⟩ = some (MQT.IR.ctl ∅ (app1 _ 0)) := StdOp.denote_single_of (o := ⟨.h, [], ∅, [0]⟩) rfl rfl rfl
  have hC : StdOp.denote ⟨.x, [], {(0, true)}, [1]⟩ = some (MQT.IR.ctl {(0, true)} (app1 _ 1)) :=
    StdOp.denote_single_of (o := ⟨.x, [], {(0, true)}, [1]⟩) rfl rfl rfl
  have hs := denoteSeq_cons_of hH (denoteSeq_cons_of (l := []) (r := fun ψ => ψ) hC rfl)
  have e1 : ((hOp 0).relabel (wire some)).controls = ∅ := by simp [hOp, StdOp.relabel]
  have e2 : ((cOp 0 1).relabel (wire some)).controls = {(0, true)} := by simp [cOp, StdOp.relabel, wire]
  have e3 : (⟨(hOp 0).type, [], ((hOp 0).relabel (wire some)).controls, ((hOp 0).relabel (wire some)).targets⟩ : StdOp ℝ) =
    ⟨.h, [], ∅, [0]⟩ := by rw [e1]; rfl
  have e4 : (⟨(cOp 0 1).type, [], ((cOp 0 1).relabel (wire some)).controls, ((cOp 0 1).relabel (wire some)).targets⟩ : StdOp ℝ) =
    ⟨.x, [], {(0, true)}, [1]⟩ := by rw [e2]; rfl
  rw [e3, e4, hs] at h2
  injection h2 with h2
  have hne : (0 : ℕ) ≠ 1 := by decide
  refine ⟨k * z ρ * r2, ?_, fun c d => ?_⟩
  · exact mul_ne_zero (mul_ne_zero (by exact_mod_cast hk.ne') (hz ρ)) (by exact_mod_cast r2_nz)
  · rw [hv, ← h2]
    beta_reduce
    rw [at_ends (MQT.IR.ctl _ _ _), sl2_ctl _ _ _ _ hne, sl2_snd, MQT.IR.ctl_empty, sl2_fst _ _ _ _ hne, sl2_fst _ _ _ _ hne,
      sl2_fst _ _ _ _ hne]
    simp only [cyl_ends]
    have hr : (⟨r2, 0⟩ : ℂ) = r2 := rfl
    cases c <;> cases d <;> simp [mat1, hr] <;> ring

end BuildProps

end MQT.ZX
