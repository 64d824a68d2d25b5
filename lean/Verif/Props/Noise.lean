/-
Deterministic noise on density matrices (C86).
-/
import Verif.DD.NoiseProof
import Verif.DD.Sum

set_option autoImplicit false

noncomputable section

open Classical
open Function (update)
open scoped ComplexConjugate

namespace MQT.DD

open MQT.IR (Bits State Mat1 mat1)

/-! ### Construction -/

/-- The effects a string of letters stands for. -/
def letter : Noise → Char
  | .ampDamp => 'A'
  | .phaseFlip => 'P'
  | .depol => 'D'
  | .ident => 'I'

theorem initializeNoiseEffects_ok (s : List Char) (l : List Noise) :
    initializeNoiseEffects s = .ok l ↔ s = l.map letter := by
  induction s generalizing l with
  | nil => cases l <;> simp [initializeNoiseEffects]
  | cons ch s ih =>
    have key : ∀ ty : Noise, ((initializeNoiseEffects s).bind fun r => MQT.Res.ok (ty :: r)) = .ok l ↔
        ∃ l', l = ty :: l' ∧ s = l'.map letter := by
      intro ty
      constructor
      · intro h
        cases hs : initializeNoiseEffects s with
        | ok r => rw [hs] at h; cases h; exact ⟨r, rfl, (ih r).1 hs⟩
        | throw => rw [hs] at h; cases h
        | ub => rw [hs] at h; cases h
      · rintro ⟨l', rfl, hl⟩
        rw [(ih l').2 hl]; rfl
    have cons : ∀ ty : Noise, ch = letter ty → ((∃ l', l = ty :: l' ∧ s = l'.map letter) ↔ ch :: s = l.map letter) := by
      intro ty hc
      constructor
      · rintro ⟨l', rfl, rfl⟩; rw [hc]; rfl
      · intro h
        cases l with
        | nil => simp at h
        | cons ty' l' =>
          simp only [List.map_cons, List.cons.injEq] at h
          have : ty = ty' := by
            have := hc.symm.trans h.1
            revert this; cases ty <;> cases ty' <;> simp [letter]
          exact ⟨l', by rw [this], h.2⟩
    rw [initializeNoiseEffects]
    by_cases h1 : ch = 'A'
    · rw [if_pos h1]; exact (key _).trans (cons _ h1)
    by_cases h2 : ch = 'P'
    · rw [if_neg h1, if_pos h2]; exact (key _).trans (cons _ h2)
    by_cases h3 : ch = 'D'
    · rw [if_neg h1, if_neg h2, if_pos h3]; exact (key _).trans (cons _ h3)
    by_cases h4 : ch = 'I'
    · rw [if_neg h1, if_neg h2, if_neg h3, if_pos h4]; exact (key _).trans (cons _ h4)
    rw [if_neg h1, if_neg h2, if_neg h3, if_neg h4]
    refine ⟨fun h => (nomatch h), fun h => ?_⟩
    cases l with
    | nil => cases h
    | cons ty l =>
      simp only [List.map_cons, List.cons.injEq] at h
      cases ty <;> simp [letter] at h <;> first | exact absurd h.1 h1 | exact absurd h.1 h2 | exact absurd h.1 h3 | exact absurd h.1 h4

/-- **C86 (construction).** Exactly the strings over `APDI` with four probabilities between 0 and 1 are accepted, and the
members hold the arguments. -/
theorem c86_make (ns nm ds dm : ℝ) (s : List Char) (N : DetNoise) :
    DetNoise.make ns nm ds dm s = .ok N ↔
      N.Ok ∧ s = N.effects.map letter ∧ N.noiseSingle = ns ∧ N.noiseMulti = nm ∧ N.dampSingle = ds ∧ N.dampMulti = dm := by
  unfold DetNoise.make
  constructor
  · intro h
    cases hs : initializeNoiseEffects s with
    | throw => rw [hs] at h; cases h
    | ub => rw [hs] at h; cases h
    | ok l =>
      rw [hs] at h
      simp only [MQT.Res.bind] at h
      split_ifs at h with hf
      cases h
      unfold faulty at hf
      push Not at hf
      obtain ⟨⟨a1, a2, a3, a4⟩, b1, b2, b3, b4⟩ := hf
      exact ⟨⟨⟨a1, by linarith⟩, ⟨b1, by linarith⟩, ⟨a2, by linarith⟩, b2, by linarith⟩,
        (initializeNoiseEffects_ok s l).1 hs, rfl, rfl, rfl, rfl⟩
  · rintro ⟨ok, hs, rfl, rfl, rfl, rfl⟩
    rw [(initializeNoiseEffects_ok s _).2 hs]
    simp only [MQT.Res.bind]
    rw [if_neg]
    unfold faulty
    push Not
    obtain ⟨h1, h2, h3, h4⟩ := ok
    refine ⟨⟨h1.1, h3.1, ?_, ?_⟩, h2.1, h4.1, ?_, ?_⟩ <;> linarith [h1.2, h2.2, h3.2, h4.2]

/-! ### The channel -/

/-- **C86 (the Kraus operators are complete).** The operators of each effect satisfy `∑ K† K = 1`. -/
theorem c86_kraus {p : ℝ} (h : 0 ≤ p ∧ p ≤ 1) (ty : Noise) : ((ty.kraus p).map fun K => K.conjTranspose * K).sum = 1 := by
  have h1 := sq_sqrt_c h.1
  have h2 := sq_sqrt_c (r := 1 - p) (by linarith [h.2])
  have h3 := sq_sqrt_c (r := p / 4) (by linarith [h.1])
  have h4 := sq_sqrt_c (r := 1 - 3 * p / 4) (by linarith [h.2])
  push_cast at h2 h3 h4
  cases ty <;> simp only [Noise.kraus]
  · generalize √(1 - p) = s at *
    generalize √p = t at *
    ext a b
    cases a <;> cases b <;> simp [mat1, Matrix.mul_apply, Matrix.conjTranspose_apply]
    linear_combination h1 + h2
  · generalize √(1 - p) = s at *
    generalize √p = t at *
    ext a b
    cases a <;> cases b <;> simp [mat1, Matrix.mul_apply, Matrix.conjTranspose_apply]
    · linear_combination h1 + h2
    · linear_combination h1 + h2
  · generalize √(1 - 3 * p / 4) = s at *
    generalize √(p / 4) = t at *
    have hI := Complex.I_mul_I
    ext a b
    cases a <;> cases b <;> simp [mat1, Matrix.mul_apply, Matrix.conjTranspose_apply]
    · linear_combination 3 * h3 + h4 - t * t * hI
    · linear_combination 3 * h3 + h4 - t * t * hI
  · simp

theorem chan_trace {p : ℝ} (h : 0 ≤ p ∧ p ≤ 1) (ty : Noise) (H : Bits → Bits → ℂ) :
    ∀ {q N : ℕ}, q < N → ∀ s, sumB N (fun z => chan (ty.kraus p) q H z z) s = sumB N (fun z => H z z) s
  | q, 0, hq, s => absurd hq (Nat.not_lt_zero _)
  | q, N + 1, hq, s => by
    by_cases hqn : q = N
    · subst hqn
      rw [sumB_succ, sumB_succ, ← sumB_add, ← sumB_add]
      refine sumB_congr fun z _ => ?_
      simp only [chan, kraus_form h, Function.update_self, Function.update_idem]
      cases ty <;> simp only [form, if_true, Bool.true_eq_false, if_false, Bool.not_false, Bool.not_true] <;> ring
    · rw [sumB, sumB, chan_trace h ty H (by omega), chan_trace h ty H (by omega)]

/-- **C86 (trace).** The channel of any effects on any qubits preserves the trace. -/
theorem c86_trace {N : DetNoise} (hN : N.Ok) (used : Finset ℕ) (n : ℕ) (H : Bits → Bits → ℂ) (s : Bits) :
    sumB n (fun z => N.channel used n H z z) s = sumB n (fun z => H z z) s := by
  have fold : ∀ (k q m : ℕ) (l : List Noise), q < m → ∀ H : Bits → Bits → ℂ, ∀ s,
      sumB m (fun z => l.foldl (fun H ty => chan (ty.kraus (N.prob k ty)) q H) H z z) s = sumB m (fun z => H z z) s := by
    intro k q m l hq
    induction l with
    | nil => exact fun _ _ => rfl
    | cons ty l ih => intro H s; rw [List.foldl_cons, ih, chan_trace (hN.prob _ _) ty H hq]
  have all : ∀ k n H s, k ≤ n → sumB n (fun z => N.channel used k H z z) s = sumB n (fun z => H z z) s := by
    intro k
    induction k with
    | zero => exact fun _ _ _ _ => rfl
    | succ k ih =>
      intro n H s hk
      by_cases h : k ∈ used
      · simp only [DetNoise.channel, if_pos h, DetNoise.chanQ]
        rw [fold _ _ _ _ (by omega), ih n H s (by omega)]
      · simp only [DetNoise.channel, if_neg h]
        exact ih n H s (by omega)
  exact all n n H s le_rfl

/-- **C86 (noise is the channel).** Applying the noise of an accepted noise model to a density matrix after an operation
gives, without undefined behaviour, a density matrix again: the one the channel makes of it, where the channel is each
effect's Kraus operators on each qubit of the operation.

Missing from C86: operations without qubits (`c86_empty`) and decision diagrams that skip a level above a used qubit other
than by ending in the identity (`c86_skipped`). -/
theorem c86_channel_partial {ns nm ds dm : ℝ} {s : List Char} {N : DetNoise} (hN : DetNoise.make ns nm ds dm s = .ok N)
    {used : Finset ℕ} (hu : used ≠ ∅) {n : ℕ} {e : MEdge} (he : DensOk n e) (hl : Levels used n e.p) :
    ∃ r, N.run n used e = some r ∧ DensOk n r ∧ ∀ x y, r.dens n x y = N.channel used n (e.dens n) x y :=
  apply_dens ((c86_make ns nm ds dm s N).1 hN).1 hu n e he hl

/-- **C86 (operations without qubits, negation).** After an operation without qubits (a global phase) the behaviour is
undefined, unless the density matrix is the zero edge. -/
theorem c86_empty (N : DetNoise) (n : ℕ) {e : MEdge} (he : e.w ≠ 0) : N.run n ∅ e = none := by
  unfold DetNoise.run
  cases n <;> simp [DetNoise.apply, he]

/-! ### Skipped levels -/

/-- `|1><1|` on qubit 0. -/
def oneNode : MNode := .node 0 (fun b => if b = (true, true) then 1 else 0) fun _ => .term

/-- Qubit 1 completely mixed, qubit 0 in state 1. -/
def mixedOne : MEdge := ⟨oneNode, 1 / 2⟩

/-- Amplitude damping with certainty. -/
def fullDamp : DetNoise := ⟨0, 0, 1, 1, [.ampDamp]⟩

theorem mixedOne_dens (x y : Bits) : mixedOne.dens 2 x y = if x 1 = y 1 ∧ x 0 = true ∧ y 0 = true then 1 / 2 else 0 := by
  simp only [mixedOne, oneNode, Edge.dens, hval, expand, Edge.mat, mval]
  by_cases h1 : x 1 = y 1 <;> cases hx : x 0 <;> cases hy : y 0 <;> cases h2 : x 1 <;> cases h3 : y 1 <;> simp_all [Edge.zero]

theorem oneNode_can : MCan 1 oneNode := by
  refine ⟨Nat.zero_lt_one, ?_, ?_, fun b => ⟨fun _ => rfl, fun _ => trivial⟩⟩
  · simp [mtop, marg, margStep, rcs]
  · simp [IdLike]

theorem mixedOne_ok : DensOk 2 mixedOne := by
  refine ⟨⟨?_, ⟨by simp, rfl, fun b => ?_, fun _ => trivial⟩, ⟨1 / 2, by norm_num, by simp [mixedOne]⟩⟩,
    fun h => by simp [mixedOne] at h, ?_⟩
  · obtain ⟨-, h2, h3, h4⟩ := oneNode_can
    exact ⟨by norm_num, h2, h3, h4⟩
  · cases b <;> simp [Nonneg.one, Nonneg.zero]
  · refine ⟨2, fun k x => if (x 1 = true ↔ k = 1) ∧ x 0 = true then (√(1 / 2) : ℝ) else 0, fun x y => ?_⟩
    have hs := sq_sqrt_c (r := 1 / 2) (by norm_num)
    generalize √(1 / 2) = s at *
    rw [mixedOne_dens, Fin.sum_univ_two]
    cases h1 : x 1 <;> cases h2 : y 1 <;> cases h3 : x 0 <;> cases h4 : y 0 <;> simp [hs, h1, h2, h3, h4]

/-- **C86 (skipped levels, negation).** Complete damping of qubit 0 takes qubit 1 from the completely mixed state to `|1>`:
the recursion takes the successors of the node of qubit 0 for those of qubit 1. -/
theorem c86_skipped : DetNoise.make 0 0 1 1 ['A'] = .ok fullDamp ∧ DensOk 2 mixedOne ∧
    ∃ r, fullDamp.run 2 {0} mixedOne = some r ∧ r.dens 2 (fun _ => false) (fun _ => false) = 0 ∧
      fullDamp.channel {0} 2 (mixedOne.dens 2) (fun _ => false) (fun _ => false) = 1 / 2 := by
  have hok : fullDamp.Ok := by constructor <;> simp [fullDamp]
  have hmake : DetNoise.make 0 0 1 1 ['A'] = .ok fullDamp := (c86_make _ _ _ _ _ _).2 ⟨hok, rfl, rfl, rfl, rfl, rfl⟩
  refine ⟨hmake, mixedOne_ok, ?_⟩
  have hid : DensOk 1 ⟨.term, 1⟩ := by
    refine ⟨⟨trivial, trivial, Nonneg.one⟩, fun h => absurd h one_ne_zero, 2,
      fun k x => if (x 0 = true ↔ k = 1) then 1 else 0, fun x y => ?_⟩
    simp only [Edge.dens, hval, expand, Fin.sum_univ_two]
    cases h1 : x 0 <;> cases h2 : y 0 <;> simp [Edge.zero, Edge.mat]
  obtain ⟨r1, k1, k2, -⟩ := apply_dens hok (used := {0}) (by simp) 1 ⟨.term, 1⟩ hid (by simp [Levels])
  have z : ∀ f, fullDamp.apply {0} f 1 ⟨.term, 0⟩ = some ⟨.term, 0⟩ := fun f => by simp [DetNoise.apply]
  have hsucc : successors (fun f e => fullDamp.apply {0} f 1 e) false oneNode =
      some fun b => if b = (true, true) then r1 else ⟨.term, 0⟩ := by
    rw [oneNode, successors]
    refine collect_some fun b => ?_
    obtain ⟨b1, b2⟩ := b
    cases b1 <;> cases b2 <;> simp [z, k1]
  have hrun : fullDamp.run 2 {0} mixedOne = some (finish 1 (1 / 2) fun b => if b = (true, true) then r1 else ⟨.term, 0⟩) := by
    rw [DetNoise.run, DetNoise.apply, if_neg (by simp [mixedOne]), if_neg (by simp), if_pos ⟨0, by simp, by norm_num⟩]
    change ((successors (fun f e => fullDamp.apply {0} f 1 e) false oneNode).bind _) = _
    rw [hsucc, Option.bind_some, if_neg (by simp)]
    rfl
  have hq : QuadOk 1 fun b => if b = (true, true) then r1 else (⟨.term, 0⟩ : MEdge) := by
    refine ⟨fun b => ?_, by simp, fun b => ?_⟩
    · split_ifs
      · exact k2.ok.can
      · trivial
    · cases b
      · exact ⟨by simp; trivial, by simp; trivial, by simp [Nonneg.zero]⟩
      · simpa using k2.ok
  have hm : Mix (quad 1 fun b => if b = (true, true) then r1 else (⟨.term, 0⟩ : MEdge)) := by
    refine (k2.mix.map (fun f x => if x 1 = true then f x else 0) fun s f hf x y => ?_ :
      Mix fun x y => if x 1 = true ∧ y 1 = true then r1.dens 1 x y else 0).congr fun x y => ?_
    · cases x 1 <;> cases y 1 <;> simp [hf]
    · unfold quad
      cases x 1 <;> cases y 1 <;> simp [Edge.dens, Edge.mat]
  refine ⟨_, hrun, ?_, ?_⟩
  · have e1 : ∀ x y, (finish 1 (1 / 2) fun b => if b = (true, true) then r1 else (⟨.term, 0⟩ : MEdge)).dens 2 x y =
        (1 / 2) * (makeM 1 fun b => if b = (true, true) then r1 else (⟨.term, 0⟩ : MEdge)).dens 2 x y := by
      intro x y
      rw [Edge.dens, finish_p, finish_mul, Edge.dens]; ring
    rw [e1, (makeM_quad hq hm).2]
    simp [quad, Edge.dens]
  · have hp : fullDamp.prob ({0} : Finset ℕ).card .ampDamp = 1 := by simp [DetNoise.prob, fullDamp]
    have he : fullDamp.effects = [.ampDamp] := rfl
    simp only [DetNoise.channel, Finset.mem_singleton, one_ne_zero, if_false, if_true, DetNoise.chanQ, he, List.foldl]
    rw [hp, chan, kraus_form (by norm_num)]
    simp [form, mixedOne_dens]

/-- Depolarisation with probability 1/2. -/
def halfDepol : DetNoise := ⟨1 / 2, 0, 0, 0, [.depol]⟩

/-- Depolarisation with probability 1/2 of `|1>`: 1/4 of `|0>`. -/
example : ∃ r : MEdge, DetNoise.make (1 / 2) 0 0 0 ['D'] = .ok halfDepol ∧
    halfDepol.run 1 {0} ⟨oneNode, 1⟩ = some r ∧ r.dens 1 (fun _ => false) (fun _ => false) = 1 / 4 ∧
      r.dens 1 (fun _ => true) (fun _ => true) = 3 / 4 := by
  have hmake : DetNoise.make (1 / 2) 0 0 0 ['D'] = .ok halfDepol :=
    (c86_make _ _ _ _ _ _).2 ⟨by constructor <;> norm_num [halfDepol], rfl, rfl, rfl, rfl, rfl⟩
  have hd : ∀ x y, (⟨oneNode, 1⟩ : MEdge).dens 1 x y = if x 0 = true ∧ y 0 = true then 1 else 0 := by
    intro x y
    simp only [oneNode, Edge.dens, hval, expand, Edge.mat, mval]
    cases hx : x 0 <;> cases hy : y 0 <;> simp
  have hok : DensOk 1 ⟨oneNode, 1⟩ := by
    refine ⟨⟨oneNode_can, mixedOne_ok.ok.shape, Nonneg.one⟩, fun h => absurd h one_ne_zero, 1,
      fun k x => if x 0 = true then 1 else 0, fun x y => ?_⟩
    rw [hd]
    cases h1 : x 0 <;> cases h2 : y 0 <;> simp [h1, h2]
  obtain ⟨r, h1, -, h3⟩ := c86_channel_partial hmake (used := {0}) (by simp) hok (by simp [Levels, oneNode])
  have hp : halfDepol.prob ({0} : Finset ℕ).card .depol = 1 / 2 := by simp [DetNoise.prob, halfDepol]
  have he : halfDepol.effects = [.depol] := rfl
  refine ⟨r, hmake, h1, ?_, ?_⟩
  all_goals
    rw [h3]
    simp only [DetNoise.channel, Finset.mem_singleton, if_true, DetNoise.chanQ, he, List.foldl]
    rw [hp, chan, kraus_form (by norm_num)]
    simp [form, hd]
    norm_num

end MQT.DD
