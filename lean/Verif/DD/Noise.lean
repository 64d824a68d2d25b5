/-
Deterministic noise on density-matrix decision diagrams.

Source in /repo: src/dd/NoiseFunctionality.cpp
  35-59    `initializeNoiseEffects`
  238-253  constructor of `DeterministicNoiseFunctionality`
  255-269  `applyNoiseEffects(dEdge&, Operation)`
  271-341  `applyNoiseEffects` (the recursion)
  343-357  `applyPhaseFlipToEdges`
  359-388  `applyAmplitudeDampingToEdges`
  390-450  `applyDepolarisationToEdges`
  452-468  `sanityCheckOfNoiseProbabilities`

Simplifications as in DD/Basic and DD/Density (exact weights, no pointer flags, no reference counts).
-/
import Verif.DD.Density
import Verif.Common.Res
import Verif.IR.Gates

set_option autoImplicit false

noncomputable section

open Classical
open Function (update)
open scoped ComplexConjugate

namespace MQT.DD

open MQT.IR (Bits State Mat1 mat1)

/-- `NoiseOperations`. -/
inductive Noise where
  | ampDamp
  | phaseFlip
  | depol
  | ident
  deriving DecidableEq

/-- `initializeNoiseEffects` (35-59). -/
def initializeNoiseEffects : List Char → MQT.Res (List Noise)
  | [] => .ok []
  | ch :: l => (if ch = 'A' then .ok Noise.ampDamp else if ch = 'P' then .ok .phaseFlip else if ch = 'D' then .ok .depol
      else if ch = 'I' then .ok .ident else .throw : MQT.Res Noise).bind fun e =>
    (initializeNoiseEffects l).bind fun r => .ok (e :: r)

/-- The condition of `sanityCheckOfNoiseProbabilities` (452-468). -/
def faulty (noise damp factor : ℝ) : Prop := noise < 0 ∨ damp < 0 ∨ noise * factor > 1 ∨ damp * factor > 1

/-- The members of `DeterministicNoiseFunctionality`. -/
structure DetNoise where
  noiseSingle : ℝ
  noiseMulti : ℝ
  dampSingle : ℝ
  dampMulti : ℝ
  effects : List Noise

/-- The constructor (238-253). -/
def DetNoise.make (noiseSingle noiseMulti dampSingle dampMulti : ℝ) (effects : List Char) : MQT.Res DetNoise :=
  (initializeNoiseEffects effects).bind fun l =>
    if faulty noiseSingle dampSingle 1 ∨ faulty noiseMulti dampMulti 1 then .throw
    else .ok ⟨noiseSingle, noiseMulti, dampSingle, dampMulti, l⟩

/-- `if (!e.w.exactlyZero()) e.w *= z`. -/
def scale (e : MEdge) (z : ℂ) : MEdge := if e.w = 0 then e else ⟨e.p, e.w * z⟩

/-- `var` (364-367, 394-396). -/
def top4 (e : RC → MEdge) : ℕ :=
  max (max (e (false, false)).p.var (e (false, true)).p.var) (max (e (true, false)).p.var (e (true, true)).p.var)

/-- `applyPhaseFlipToEdges`. -/
def phaseFlipEdges (p : ℝ) (e : RC → MEdge) (b : RC) : MEdge :=
  if b.1 = b.2 then e b else scale (e b) (1 - 2 * p)

/-- `applyAmplitudeDampingToEdges`. -/
def ampDampEdges (p : ℝ) (e : RC → MEdge) : Option (RC → MEdge) :=
  (if (e (true, true)).w = 0 then some (e (false, false))
    else if (e (false, false)).w = 0 then some ⟨(e (true, true)).p, (e (true, true)).w * p⟩
    else madd2 (top4 e + 1) (e (false, false)) ⟨(e (true, true)).p, (e (true, true)).w * p⟩).map fun e0 b =>
  if b.1 = b.2 then if b.1 = false then e0 else scale (e b) (1 - p)
  else scale (e b) (√(1 - p) : ℝ)

/-- `applyDepolarisationToEdges`. -/
def depolEdges (p : ℝ) (e : RC → MEdge) : Option (RC → MEdge) :=
  let half : MEdge → ℝ → MEdge := fun e z => ⟨e.p, if e.w = 0 then 0 else e.w * z * (1 / 2)⟩
  (madd2 (top4 e + 1) (half (e (false, false)) (2 - p)) (half (e (true, true)) p)).bind fun e0 =>
  (madd2 (top4 e + 1) (half (e (true, true)) (2 - p)) (half (e (false, false)) p)).map fun e3 b =>
  if b.1 = b.2 then if b.1 = false then e0 else e3
  else scale (e b) (1 - p)

/-- One round of the loop over `noiseEffects` (308-332). -/
def DetNoise.step (N : DetNoise) (used : Finset ℕ) (ty : Noise) (e : RC → MEdge) : Option (RC → MEdge) :=
  match ty with
  | .ampDamp => ampDampEdges (if used.card = 1 then N.dampSingle else N.dampMulti) e
  | .phaseFlip => some (phaseFlipEdges (if used.card = 1 then N.noiseSingle else N.noiseMulti) e)
  | .depol => depolEdges (if used.card = 1 then N.noiseSingle else N.noiseMulti) e
  | .ident => some e

/-- The loop (308-332). -/
def DetNoise.steps (N : DetNoise) (used : Finset ℕ) : List Noise → (RC → MEdge) → Option (RC → MEdge)
  | [], e => some e
  | ty :: l, e => (N.step used ty e).bind (N.steps used l)

/-- The end of the recursion (335-340). -/
def finish (n : ℕ) (w : ℂ) (e : RC → MEdge) : MEdge :=
  let r := makeM n e
  if r.w = 0 then r else ⟨r.p, r.w * w⟩

/-- The four recursive calls (280-307), with `f` for the recursion one level down. -/
def successors (f : Bool → MEdge → Option MEdge) (first : Bool) : MNode → Option (RC → MEdge)
  | .term => (f first ⟨.term, 1⟩).map fun r b => if b.1 = b.2 then r else .zero
  | .node _ w c => collect fun b =>
    if first = true then f true ⟨c b, w b⟩
    else if b.1 = b.2 then f false ⟨c b, w b⟩
    else f true ⟨c (false, true), w (false, true)⟩

/-- The recursive `applyNoiseEffects` (271-341); the number is `level`.  `*usedQubits.begin()` of an empty set is
undefined. -/
def DetNoise.apply (N : DetNoise) (used : Finset ℕ) : Bool → ℕ → MEdge → Option MEdge
  | _, 0, e => if e.p = .term ∧ e.w = 0 then some e else if used = ∅ then none else some e
  | first, n + 1, e =>
    if e.p = .term ∧ e.w = 0 then some e
    else if used = ∅ then none
    else if ∃ q ∈ used, q < n + 1 then
      (successors (fun f e => N.apply used f n e) first e.p).bind fun new =>
      (if n ∈ used then N.steps used N.effects new else some new).map (finish n e.w)
    else some e

/-- `applyNoiseEffects` for an operation on the qubits `used`. -/
def DetNoise.run (N : DetNoise) (n : ℕ) (used : Finset ℕ) (e : MEdge) : Option MEdge := N.apply used false n e

/-! ### Specification -/

/-- The Kraus operators of the three channels. -/
def Noise.kraus (p : ℝ) : Noise → List Mat1
  | .ampDamp => [mat1 1 0 0 (√(1 - p) : ℝ), mat1 0 (√p : ℝ) 0 0]
  | .phaseFlip => [mat1 (√(1 - p) : ℝ) 0 0 (√(1 - p) : ℝ), mat1 (√p : ℝ) 0 0 (-√p : ℝ)]
  | .depol => [mat1 (√(1 - 3 * p / 4) : ℝ) 0 0 (√(1 - 3 * p / 4) : ℝ), mat1 0 (√(p / 4) : ℝ) (√(p / 4) : ℝ) 0,
      mat1 0 (-(√(p / 4) : ℝ) * Complex.I) ((√(p / 4) : ℝ) * Complex.I) 0, mat1 (√(p / 4) : ℝ) 0 0 (-√(p / 4) : ℝ)]
  | .ident => [1]

/-- The sum of `K B K†` over the Kraus operators, for a 2×2 matrix. -/
def krausSum (l : List Mat1) (B : Bool → Bool → ℂ) (r c : Bool) : ℂ :=
  (l.map fun K => ∑ a, ∑ b, K r a * B a b * conj (K c b)).sum

/-- The channel given by Kraus operators on qubit `q`. -/
def chan (l : List Mat1) (q : ℕ) (H : Bits → Bits → ℂ) (x y : Bits) : ℂ :=
  krausSum l (fun a b => H (update x q a) (update y q b)) (x q) (y q)

/-- The probability of an effect when an operation uses `k` qubits. -/
def DetNoise.prob (N : DetNoise) (k : ℕ) : Noise → ℝ
  | .ampDamp => if k = 1 then N.dampSingle else N.dampMulti
  | .phaseFlip => if k = 1 then N.noiseSingle else N.noiseMulti
  | .depol => if k = 1 then N.noiseSingle else N.noiseMulti
  | .ident => 0

/-- All effects on qubit `q`, one after another. -/
def DetNoise.chanQ (N : DetNoise) (k q : ℕ) (H : Bits → Bits → ℂ) : Bits → Bits → ℂ :=
  N.effects.foldl (fun H ty => chan (ty.kraus (N.prob k ty)) q H) H

/-- The noise on the qubits below `n` that are in `used`. -/
def DetNoise.channel (N : DetNoise) (used : Finset ℕ) : ℕ → (Bits → Bits → ℂ) → Bits → Bits → ℂ
  | 0, H => H
  | n + 1, H => if n ∈ used then N.chanQ used.card n (N.channel used n H) else N.channel used n H

/-- No level above the lowest used qubit is skipped except in identities. -/
def Levels (used : Finset ℕ) : ℕ → MNode → Prop
  | 0, _ => True
  | n + 1, p => (∃ q ∈ used, q < n + 1) →
    match p with
    | .term => True
    | .node v _ c => v = n ∧ ∀ b, Levels used n (c b)

/-- Probabilities between 0 and 1. -/
structure DetNoise.Ok (N : DetNoise) : Prop where
  noiseSingle : 0 ≤ N.noiseSingle ∧ N.noiseSingle ≤ 1
  noiseMulti : 0 ≤ N.noiseMulti ∧ N.noiseMulti ≤ 1
  dampSingle : 0 ≤ N.dampSingle ∧ N.dampSingle ≤ 1
  dampMulti : 0 ≤ N.dampMulti ∧ N.dampMulti ≤ 1

/-! ### Kraus operators -/

theorem DetNoise.Ok.prob {N : DetNoise} (h : N.Ok) (k : ℕ) (ty : Noise) : 0 ≤ N.prob k ty ∧ N.prob k ty ≤ 1 := by
  cases ty <;> unfold DetNoise.prob
  · simp only; split_ifs
    · exact h.dampSingle
    · exact h.dampMulti
  · simp only; split_ifs
    · exact h.noiseSingle
    · exact h.noiseMulti
  · simp only; split_ifs
    · exact h.noiseSingle
    · exact h.noiseMulti
  · simp

theorem sq_sqrt_c {r : ℝ} (h : 0 ≤ r) : ((√r : ℝ) : ℂ) * ((√r : ℝ) : ℂ) = r := by
  rw [← Complex.ofReal_mul, Real.mul_self_sqrt h]

theorem kraus_ampDamp {p : ℝ} (h : 0 ≤ p ∧ p ≤ 1) (B : Bool → Bool → ℂ) (r c : Bool) :
    krausSum (Noise.ampDamp.kraus p) B r c =
      if r = c then if r = false then B false false + p * B true true else (1 - p) * B true true
      else (√(1 - p) : ℝ) * B r c := by
  have h1 := sq_sqrt_c h.1
  have h2 := sq_sqrt_c (sub_nonneg.2 h.2)
  push_cast at h2
  cases r <;> cases c <;> simp [krausSum, Noise.kraus, mat1]
  · linear_combination B true true * h1
  · ring
  · linear_combination B true true * h2

theorem kraus_phaseFlip {p : ℝ} (h : 0 ≤ p ∧ p ≤ 1) (B : Bool → Bool → ℂ) (r c : Bool) :
    krausSum (Noise.phaseFlip.kraus p) B r c = if r = c then B r c else (1 - 2 * p) * B r c := by
  have h1 := sq_sqrt_c h.1
  have h2 := sq_sqrt_c (sub_nonneg.2 h.2)
  push_cast at h2
  cases r <;> cases c <;> simp [krausSum, Noise.kraus, mat1]
  · linear_combination B false false * h2 + B false false * h1
  · linear_combination B false true * h2 - B false true * h1
  · linear_combination B true false * h2 - B true false * h1
  · linear_combination B true true * h2 + B true true * h1

theorem kraus_depol {p : ℝ} (h : 0 ≤ p ∧ p ≤ 1) (B : Bool → Bool → ℂ) (r c : Bool) :
    krausSum (Noise.depol.kraus p) B r c =
      if r = c then (2 - p) / 2 * B r r + p / 2 * B (!r) (!r) else (1 - p) * B r c := by
  have h1 := sq_sqrt_c (show 0 ≤ p / 4 by linarith)
  have h2 := sq_sqrt_c (show 0 ≤ 1 - 3 * p / 4 by linarith)
  push_cast at h1 h2
  have hI := Complex.I_mul_I
  unfold krausSum Noise.kraus
  generalize √(p / 4) = s at *
  generalize √(1 - 3 * p / 4) = t at *
  cases r <;> cases c <;> simp [mat1]
  · linear_combination B false false * h2 + (2 * B true true + B false false) * h1 - (s : ℂ) * s * B true true * hI
  · linear_combination B false true * h2 - B false true * h1 + (s : ℂ) * s * B true false * hI
  · linear_combination B true false * h2 - B true false * h1 + (s : ℂ) * s * B false true * hI
  · linear_combination B true true * h2 + (2 * B false false + B true true) * h1 - (s : ℂ) * s * B false false * hI

end MQT.DD
