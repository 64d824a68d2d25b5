/-
Stochastic noise on state-vector decision diagrams.

Source in /repo: src/dd/NoiseFunctionality.cpp
  62-87    constructor of `StochasticNoiseFunctionality`
  89-108   `getNoiseProbability`, `getAmplitudeDampingOperationMatrix`
  110-139  `applyNoiseOperation`
  141-152  `stackOperation`
  154-197  `generateNoiseOperation`
  199-236  `returnNoiseOperation`

Simplifications: weights are exact; draws of `dist(generator)` are independent and uniform on the unit interval;
`stochasticNoiseOperationCache` returns what `makeGateDD` would build, which holds as long as one noise model uses the package.
-/
import Mathlib.MeasureTheory.Integral.IntervalIntegral.Basic
import Verif.DD.Noise
import Verif.DD.Multiply
import Verif.DD.Gate

set_option autoImplicit false

noncomputable section

open Classical
open Function (update)
open scoped ComplexConjugate

namespace MQT.DD

open MQT.IR (Bits State Mat1 mat1 app1)

/-! ### Random programs -/

/-- A program that draws numbers. -/
inductive Rand (α : Type) where
  | done (a : α)
  | draw (k : ℝ → Rand α)

namespace Rand

def bind {α β : Type} : Rand α → (α → Rand β) → Rand β
  | done a, f => f a
  | draw k, f => draw fun u => (k u).bind f

/-- Average of `f` over the results. -/
def E {α : Type} : Rand α → (α → ℂ) → ℂ
  | done a, f => f a
  | draw k, f => ∫ u in (0 : ℝ)..1, (k u).E f

/-- The result for given draws, taken from the front of the list. -/
def runWith {α : Type} : Rand α → List ℝ → Option α
  | done a, _ => some a
  | draw _, [] => none
  | draw k, u :: us => (k u).runWith us

end Rand

/-! ### The model -/

/-- The members of `StochasticNoiseFunctionality`. -/
structure StochNoise where
  noise : ℝ
  damp : ℝ
  factor : ℝ
  effects : List Noise

/-- The constructor (62-87). -/
def StochNoise.make (noise damp factor : ℝ) (effects : List Char) : MQT.Res StochNoise :=
  (initializeNoiseEffects effects).bind fun l =>
    if faulty noise damp factor then .throw else .ok ⟨noise, damp, factor, l⟩

/-- `getNoiseProbability` (89-92). -/
def StochNoise.getNoiseProbability (N : StochNoise) (multi : Bool) : ℝ := if multi then N.noise * N.factor else N.noise

/-- `getAmplitudeDampingOperationMatrix` (102-108) with the members set in the constructor (71-82). -/
def StochNoise.dampMatrix (N : StochNoise) (multi flag : Bool) : Mat1 :=
  if flag then
    if multi then mat1 0 (√N.noise * N.factor : ℝ) 0 0 else mat1 0 (√N.damp : ℝ) 0 0
  else
    if multi then mat1 1 0 0 (√(1 - N.factor * N.damp) : ℝ) else mat1 1 0 0 (√(1 - N.damp) : ℝ)

/-- The results of `returnNoiseOperation`. -/
inductive Pauli where
  | I | X | Y | Z
  deriving DecidableEq

/-- `opToSingleQubitGateMatrix`. -/
def Pauli.mat : Pauli → Mat1
  | .I => 1
  | .X => mat1 0 1 1 0
  | .Y => mat1 0 (-Complex.I) Complex.I 0
  | .Z => mat1 1 0 0 (-1)

/-- `returnNoiseOperation` (199-236); amplitude damping is not passed to it. -/
def StochNoise.returnNoiseOperation (N : StochNoise) (ty : Noise) (prob : ℝ) (multi : Bool) : Pauli :=
  match ty with
  | .depol =>
    if prob ≥ N.getNoiseProbability multi * (3 / 4) then .I
    else if prob < N.getNoiseProbability multi * (1 / 4) then .X
    else if prob < N.getNoiseProbability multi * (1 / 2) then .Y
    else .Z
  | .phaseFlip => if prob > N.getNoiseProbability multi then .I else .Z
  | .ident => .I
  | .ampDamp => .I

/-- `stackOperation` (141-152). -/
def stackOperation (n : ℕ) (operation : MEdge) (target : ℕ) (M : Mat1) : Option MEdge :=
  (makeGateDD n M [] target).bind fun g => mmul g operation

/-- `generateNoiseOperation` (154-197). -/
def StochNoise.generate (N : StochNoise) (n target : ℕ) (flag multi : Bool) :
    List Noise → Option MEdge → Rand (Option MEdge)
  | [], op => .done op
  | .ampDamp :: l, op =>
    N.generate n target flag multi l (op.bind fun o => stackOperation n o target (N.dampMatrix multi flag))
  | ty :: l, op => .draw fun u =>
    N.generate n target flag multi l (op.bind fun o =>
      if N.returnNoiseOperation ty u multi = .I then some o
      else stackOperation n o target (N.returnNoiseOperation ty u multi).mat)

/-- Multiplying the state and setting the weight to one. -/
def multiplyUnit (op : Option MEdge) (state : VEdge) : Option VEdge :=
  (op.bind fun o => mvmul o state).map fun tmp => ⟨tmp.p, 1⟩

/-- The body of the loop in `applyNoiseOperation` (116-138). -/
def StochNoise.stepTarget (N : StochNoise) (n : ℕ) (multi : Bool) (target : ℕ) (operation : MEdge) (state : VEdge) :
    Rand (Option VEdge) :=
  (N.generate n target false multi N.effects (some operation)).bind fun s =>
    match s.bind fun o => mvmul o state with
    | none => .done none
    | some tmp => .draw fun u =>
      if Complex.normSq tmp.w < u then
        (N.generate n target true multi N.effects (some operation)).bind fun s' => .done (multiplyUnit s' state)
      else .done (some ⟨tmp.p, 1⟩)

/-- The loop in `applyNoiseOperation` over the remaining targets; `identityDD` is the terminal edge with weight one. -/
def StochNoise.loop (N : StochNoise) (n : ℕ) (multi : Bool) : List ℕ → MEdge → VEdge → Rand (Option VEdge)
  | [], _, state => .done (some state)
  | t :: ts, operation, state => (N.stepTarget n multi t operation state).bind fun r =>
    match r with
    | none => .done none
    | some state' => N.loop n multi ts ⟨.term, 1⟩ state'

/-- `applyNoiseOperation` (110-139), with the targets in increasing order. -/
def StochNoise.apply (N : StochNoise) (n : ℕ) (targets : List ℕ) (operation : MEdge) (state : VEdge) :
    Rand (Option VEdge) :=
  N.loop n (decide (targets.length > 1)) targets operation state

/-! ### Specification -/

/-- The average of `|ψ><ψ|` over the results. -/
def average (prog : Rand (Option VEdge)) (x y : Bits) : ℂ :=
  prog.E fun r => match r with
    | none => 0
    | some e => e.vec x * conj (e.vec y)

/-- The probability of an effect. -/
def StochNoise.prob (N : StochNoise) (multi : Bool) (ty : Noise) : ℝ :=
  (if ty = .ampDamp then N.damp else if ty = .ident then 0 else N.noise) * if multi then N.factor else 1

/-- All effects on qubit `q`, one after another. -/
def StochNoise.chanQ (N : StochNoise) (multi : Bool) (l : List Noise) (q : ℕ) (H : Bits → Bits → ℂ) : Bits → Bits → ℂ :=
  l.foldl (fun H ty => chan (ty.kraus (N.prob multi ty)) q H) H

/-- The noise on all targets. -/
def StochNoise.channel (N : StochNoise) (multi : Bool) (ts : List ℕ) (H : Bits → Bits → ℂ) : Bits → Bits → ℂ :=
  ts.foldl (fun H q => N.chanQ multi N.effects q H) H

/-- At most one amplitude damping, and no depolarisation before it. -/
def GoodEffects (l : List Noise) : Prop :=
  Noise.ampDamp ∉ l ∨ ∃ pre post, l = pre ++ Noise.ampDamp :: post ∧ (∀ ty ∈ pre, ty = .phaseFlip ∨ ty = .ident) ∧
    Noise.ampDamp ∉ post

/-! ### Integrals of step functions -/

theorem piece {a b : ℝ} (hab : a ≤ b) {f : ℝ → ℂ} {v : ℂ} (h : ∀ u, a < u → u < b → f u = v) :
    IntervalIntegrable f MeasureTheory.volume a b ∧ ∫ u in a..b, f u = (b - a : ℝ) * v := by
  have hc : ∫ u in a..b, f u = ∫ _ in a..b, v :=
    intervalIntegral.integral_congr_Ioo_of_le hab fun u hu => h u hu.1 hu.2
  refine ⟨?_, ?_⟩
  · rw [intervalIntegrable_iff_integrableOn_Ioo_of_le hab]
    exact (MeasureTheory.integrableOn_const (C := v) (by simp)).congr_fun (fun u hu => (h u hu.1 hu.2).symm) measurableSet_Ioo
  · rw [hc, intervalIntegral.integral_const]
    simp

theorem integral_two {c : ℝ} (h0 : 0 ≤ c) (h1 : c ≤ 1) {f : ℝ → ℂ} {a b : ℂ} (ha : ∀ u, 0 < u → u < c → f u = a)
    (hb : ∀ u, c < u → u < 1 → f u = b) : ∫ u in (0 : ℝ)..1, f u = c * a + (1 - c) * b := by
  obtain ⟨i1, e1⟩ := piece h0 ha
  obtain ⟨i2, e2⟩ := piece h1 hb
  rw [← intervalIntegral.integral_add_adjacent_intervals i1 i2, e1, e2]
  push_cast
  ring

end MQT.DD
