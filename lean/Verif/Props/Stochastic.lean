/-
Stochastic noise on state vectors (C87).
-/
import Verif.DD.StochasticProof
import Verif.DD.Canonical
import Verif.Props.Noise

set_option autoImplicit false

noncomputable section

open Classical
open Function (update)
open Complex (normSq)
open scoped ComplexConjugate

namespace MQT.DD

open MQT.IR (Bits State Mat1 mat1 app1)

/-! ### Construction -/

/-- **C87 (construction).** Exactly the strings over `APDI` are accepted whose two probabilities are not negative and do not
exceed 1 after multiplication with the factor. -/
theorem c87_make (noise damp factor : ℝ) (s : List Char) (N : StochNoise) :
    StochNoise.make noise damp factor s = .ok N ↔
      N.noise = noise ∧ N.damp = damp ∧ N.factor = factor ∧ s = N.effects.map letter ∧
        0 ≤ noise ∧ 0 ≤ damp ∧ noise * factor ≤ 1 ∧ damp * factor ≤ 1 := by
  unfold StochNoise.make
  have hf : ¬ faulty noise damp factor ↔ 0 ≤ noise ∧ 0 ≤ damp ∧ noise * factor ≤ 1 ∧ damp * factor ≤ 1 := by
    simp [faulty]
  rw [← hf]
  obtain ⟨a, b, c, l⟩ := N
  constructor
  · intro h
    cases hl : initializeNoiseEffects s with
    | ub => rw [hl] at h; cases h
    | throw => rw [hl] at h; cases h
    | ok l' =>
      rw [hl] at h
      simp only [MQT.Res.bind] at h
      split_ifs at h with hh
      cases h
      exact ⟨rfl, rfl, rfl, (initializeNoiseEffects_ok s _).1 hl, hh⟩
  · rintro ⟨rfl, rfl, rfl, hs, hh⟩
    rw [(initializeNoiseEffects_ok s l).2 hs]
    simp only [MQT.Res.bind]
    rw [if_neg hh]

example : StochNoise.make (1 / 2) (1 / 4) 2 ['P', 'A', 'D'] = .ok ⟨1 / 2, 1 / 4, 2, [.phaseFlip, .ampDamp, .depol]⟩ := by
  rw [c87_make]
  norm_num [letter]

/-- Accepted noise with a factor of at least one has probabilities between 0 and 1. -/
theorem make_ok {noise damp factor : ℝ} {s : List Char} {N : StochNoise} (h : StochNoise.make noise damp factor s = .ok N)
    (hf : 1 ≤ factor) : N.Ok := by
  obtain ⟨rfl, rfl, rfl, -, h1, h2, h3, h4⟩ := (c87_make ..).1 h
  exact ⟨⟨h1, by nlinarith⟩, ⟨h2, by nlinarith⟩, ⟨by nlinarith, h3⟩, ⟨by nlinarith, h4⟩⟩

/-- **C87 (counterexample: factor).** The check accepts a damping probability of 2 for single-qubit operations, if the factor
for the other operations is small. -/
theorem c87_factor : ∃ N, StochNoise.make 0 2 (1 / 2) ['A'] = .ok N ∧ N.prob false .ampDamp = 2 := by
  refine ⟨⟨0, 2, 1 / 2, [.ampDamp]⟩, ?_, ?_⟩
  · rw [c87_make]; norm_num [letter]
  · simp [StochNoise.prob]

/-! ### Averages -/

/-- The noise after an operation on `ts` can be simulated: accepted with a factor of at least one, not more than one amplitude
damping and no depolarisation before it, and, for operations on several qubits with amplitude damping, a positive gate noise
probability or no damping. -/
structure StochNoise.Fit (N : StochNoise) (ts : List ℕ) : Prop where
  ok : N.Ok
  good : GoodEffects N.effects
  jump : Noise.ampDamp ∈ N.effects → 1 < ts.length → N.noise ≠ 0 ∨ N.damp * N.factor = 0

/-- **C87.** On average, the projectors onto the results of `applyNoiseOperation` are the noise channels of all effects on all
targets, applied to the projector onto the state after the operation.

Missing from C87: factors below one (`c87_factor`), effects with depolarisation before amplitude damping or with several amplitude
dampings (`c87_order`), and amplitude damping on several qubits without gate noise (`c87_jump`). -/
theorem c87_average_partial {N : StochNoise} {n : ℕ} {ts : List ℕ} (hN : N.Fit ts) (hts : ts ≠ []) (hn : ∀ t ∈ ts, t < n)
    {operation : MEdge} (hop : MECan n operation) {state : VEdge} (hst : VECan n state)
    (h1 : nrm n (matVec n (operation.mat n) state.vec) = 1) (x y : Bits) :
    average (N.apply n ts operation state) x y =
      N.channel (decide (ts.length > 1)) ts (pure (matVec n (operation.mat n) state.vec)) x y := by
  obtain ⟨t, ts, rfl⟩ := List.exists_cons_of_ne_nil hts
  unfold average StochNoise.apply
  exact loop_E hN.ok hN.good (fun h hm => hN.jump h (by simpa using hm)) ts t hn hop hst h1 Lin.id fun e _ _ => rfl

/-- **C87.** Whatever the draws strictly between 0 and 1, the result is a diagram of a normalised state.

Missing from C87: as above. -/
theorem c87_unit_partial {N : StochNoise} {n : ℕ} {ts : List ℕ} (hN : N.Fit ts) (hts : ts ≠ []) (hn : ∀ t ∈ ts, t < n)
    {operation : MEdge} (hop : MECan n operation) {state : VEdge} (hst : VECan n state)
    (h1 : nrm n (matVec n (operation.mat n) state.vec) = 1) {us : List ℝ} (hu : ∀ u ∈ us, 0 < u ∧ u < 1) {r : Option VEdge}
    (h : (N.apply n ts operation state).runWith us = some r) :
    ∃ e, r = some e ∧ VECan n e ∧ e.w ≠ 0 ∧ nrm n e.vec = 1 := by
  obtain ⟨t, ts, rfl⟩ := List.exists_cons_of_ne_nil hts
  have := loop_all (multi := decide ((t :: ts).length > 1)) hN.ok hN.good (fun h hm => hN.jump h (by simpa using hm)) ts t hn hop hst h1
  obtain ⟨e, rfl, h2, h3⟩ := this.runWith hu h
  exact ⟨e, rfl, h2, fun h0 => by simp [h0] at h3, by rw [nrm_vec h2, h3]⟩

/-- Enough draws: at most two for every effect, and one more, for every target. -/
theorem generate_run (N : StochNoise) (n t : ℕ) (flag multi : Bool) : ∀ (l : List Noise) (op : Option MEdge) (us : List ℝ),
    l.length ≤ us.length → ∃ r k, k ≤ l.length ∧ ∀ {β : Type} (f : Option MEdge → Rand β),
      ((N.generate n t flag multi l op).bind f).runWith us = (f r).runWith (us.drop k) := by
  intro l
  induction l with
  | nil => intro op us _; exact ⟨op, 0, le_rfl, fun f => rfl⟩
  | cons ty l ih =>
    intro op us hu
    by_cases h : ty = .ampDamp
    · subst h
      obtain ⟨r, k, hk, hr⟩ := ih (op.bind fun o => stackOperation n o t (N.dampMatrix multi flag)) us
        (by simp at hu; omega)
      exact ⟨r, k, by simp; omega, hr⟩
    · cases us with
      | nil => simp at hu
      | cons u us =>
        obtain ⟨r, k, hk, hr⟩ := ih (op.bind fun o =>
          if N.returnNoiseOperation ty u multi = .I then some o
          else stackOperation n o t (N.returnNoiseOperation ty u multi).mat) us (by simpa using hu)
        refine ⟨r, k + 1, by simpa using hk, fun f => ?_⟩
        rw [generate_other N n t flag multi h]
        exact hr f

/-- **C87 (termination).** With `2k + 1` draws for every target, where `k` is the number of effects, there is a result. -/
theorem c87_run (N : StochNoise) (n : ℕ) (ts : List ℕ) (operation : MEdge) (state : VEdge) (us : List ℝ)
    (hu : us.length = (2 * N.effects.length + 1) * ts.length) : ∃ r, (N.apply n ts operation state).runWith us = some r := by
  unfold StochNoise.apply
  generalize decide (ts.length > 1) = multi
  replace hu : (2 * N.effects.length + 1) * ts.length ≤ us.length := hu.ge
  induction ts generalizing operation state us with
  | nil => exact ⟨_, rfl⟩
  | cons t ts ih =>
    have hstep : ∃ r k, k ≤ 2 * N.effects.length + 1 ∧ ∀ f : Option VEdge → Rand (Option VEdge),
        ((N.stepTarget n multi t operation state).bind f).runWith us = (f r).runWith (us.drop k) := by
      rw [List.length_cons, Nat.mul_succ] at hu
      obtain ⟨s, k, hk, hs⟩ := generate_run N n t false multi N.effects (some operation) us (by omega)
      have assoc : ∀ {α β γ : Type} (p : Rand α) (g : α → Rand β) (h : β → Rand γ),
          (p.bind g).bind h = p.bind fun a => (g a).bind h := by
        intro α β γ p g h
        induction p with
        | done a => rfl
        | draw k ih => simp only [Rand.bind, ih]
      cases hm : s.bind fun o => mvmul o state with
      | none =>
        refine ⟨none, k, by omega, fun f => ?_⟩
        unfold StochNoise.stepTarget
        rw [assoc, hs]
        simp only [hm]
        rfl
      | some tmp =>
        cases hd : us.drop k with
        | nil => have := congrArg List.length hd; simp at this; omega
        | cons u us' =>
          have hd' : us' = us.drop (k + 1) := by
            rw [← List.drop_drop, hd]; rfl
          by_cases hlt : normSq tmp.w < u
          · obtain ⟨s', k', hk', hs'⟩ := generate_run N n t true multi N.effects (some operation) us' (by
              have := congrArg List.length hd; simp at this; omega)
            refine ⟨multiplyUnit s' state, k + 1 + k', by omega, fun f => ?_⟩
            unfold StochNoise.stepTarget
            rw [assoc, hs, hd]
            simp only [hm, Rand.bind, Rand.runWith, if_pos hlt]
            rw [assoc, hs', hd', List.drop_drop]
            rfl
          · refine ⟨some ⟨tmp.p, 1⟩, k + 1, by omega, fun f => ?_⟩
            unfold StochNoise.stepTarget
            rw [assoc, hs, hd]
            simp only [hm, Rand.bind, Rand.runWith, if_neg hlt, hd']
    obtain ⟨r, k, hk, hr⟩ := hstep
    rw [StochNoise.loop, hr]
    cases r with
    | none => exact ⟨_, rfl⟩
    | some st =>
      show ∃ r, (N.loop n multi ts ⟨.term, 1⟩ st).runWith (us.drop k) = some r
      refine ih _ _ _ ?_
      rw [List.length_cons, Nat.mul_succ] at hu
      rw [List.length_drop]
      omega

/-! ### Examples -/

/-- The basis state of `n` qubits with all bits set. -/
def ones (n : ℕ) : VEdge := collapsed n fun _ => true

theorem ones_can (n : ℕ) : VECan n (ones n) := (collapsed_spec n _).1

theorem ones_unit (n : ℕ) : nrm n (matVec n ((⟨.term, 1⟩ : MEdge).mat n) (ones n).vec) = 1 := by
  rw [matVec_one (ones_can n)]
  unfold nrm
  rw [sumB_eq, Finset.sum_eq_single fun _ => true]
  · unfold ones
    rw [(collapsed_spec n _).2, if_pos (fun q hq => by simp [fill, hq])]
    simp
  · intro z _ hz
    unfold ones
    rw [(collapsed_spec n _).2, if_neg]
    · simp
    · intro h
      apply hz
      funext i
      have := h i i.2
      simpa [fill] using this
  · intro h; exact absurd (Finset.mem_univ _) h

/-- Phase flips, amplitude damping and depolarisation, in this order. -/
def exNoise : StochNoise := ⟨1 / 2, 1 / 4, 2, [.phaseFlip, .ampDamp, .depol]⟩

theorem exNoise_fit (ts : List ℕ) : exNoise.Fit ts :=
  ⟨by constructor <;> norm_num [exNoise], Or.inr ⟨[.phaseFlip], [.depol], rfl, by simp, by simp⟩, fun _ _ => Or.inl (by
    norm_num [exNoise])⟩

example (x y : Bits) : average (exNoise.apply 2 [0, 1] ⟨.term, 1⟩ (ones 2)) x y =
    exNoise.channel true [0, 1] (pure (ones 2).vec) x y := by
  have := c87_average_partial (exNoise_fit [0, 1]) (n := 2) (by simp) (by simp) mecan_one (ones_can 2) (ones_unit 2) x y
  rw [matVec_one (ones_can 2)] at this
  exact this

/-- Amplitude damping only. -/
def exDamp : StochNoise := ⟨0, 1 / 4, 1, [.ampDamp]⟩

/-- The state `1` decays with the damping probability. -/
example : average (exDamp.apply 1 [0] ⟨.term, 1⟩ (ones 1)) (fun _ => false) (fun _ => false) = 1 / 4 := by
  have hN : exDamp.Fit [0] := ⟨by constructor <;> norm_num [exDamp], Or.inr ⟨[], [], rfl, by simp, by simp⟩, by simp⟩
  rw [c87_average_partial hN (n := 1) (by simp) (by simp) mecan_one (ones_can 1) (ones_unit 1),
    matVec_one (ones_can 1)]
  simp only [StochNoise.channel, StochNoise.chanQ, exDamp, List.foldl, StochNoise.prob, chan, List.length_singleton]
  rw [kraus_form (by norm_num)]
  simp [form, pure, ones, (collapsed_spec 1 _).2]

/-! ### Counterexamples -/

/-- Amplitude damping without gate noise, and the state where only qubit 1 is set. -/
def exJump : StochNoise := ⟨0, 1, 1, [.ampDamp]⟩

/-- One target with a single amplitude damping. -/
theorem step_damp {N : StochNoise} (hN : N.effects = [.ampDamp]) {n t : ℕ} (ht : t < n) (multi : Bool) {st : VEdge}
    (hst : VECan n st) : ∃ tmp : Bool → VEdge, (∀ b, VECan n (tmp b) ∧ (tmp b).vec = app1 (N.dampMatrix multi b) t st.vec ∧
      normSq (tmp b).w = nrm n (app1 (N.dampMatrix multi b) t st.vec)) ∧
      N.stepTarget n multi t ⟨.term, 1⟩ st = .draw fun u => .done (some ⟨(tmp (decide (normSq (tmp false).w < u))).p, 1⟩) := by
  have h := fun b => stack_spec ht (rep_self (t := t) (mecan_one (n := n))) (N.dampMatrix multi b)
  simp only [mul_one] at h
  choose s h1 h2 using h
  have k := fun b => rep_mvmul (h2 b) hst
  simp only [matVec_one hst] at k
  choose tmp k1 k2 k3 k4 using k
  refine ⟨tmp, fun b => ⟨k2 b, k3 b, k4 b⟩, ?_⟩
  unfold StochNoise.stepTarget
  simp only [hN, StochNoise.generate, Option.bind_some, h1, Rand.bind, k1, multiplyUnit, Option.map_some]
  congr 1
  funext u
  by_cases hu : normSq (tmp false).w < u
  · simp [hu]
  · simp [hu]

/-- **C87 (counterexample: operations on several qubits).** The matrix for a damping event after an operation on several qubits
is scaled with the gate noise probability instead of the damping probability. Without gate noise it is zero, and the state that
should decay becomes the terminal with weight one, which is not a diagram of two qubits. -/
theorem c87_jump (u v : ℝ) (hu : u < 1) :
    StochNoise.make 0 1 1 ['A'] = .ok exJump ∧
    (exJump.apply 2 [0, 1] ⟨.term, 1⟩ (collapsed 2 fun q => decide (q = 1))).runWith [u, v] = some (some ⟨.term, 1⟩) ∧
    ¬ VECan 2 ⟨.term, 1⟩ := by
  refine ⟨by rw [c87_make]; norm_num [exJump, letter], ?_, fun h => ?_⟩
  · obtain ⟨hst, hv0⟩ := collapsed_spec 2 fun q => decide (q = 1)
    replace hv0 : ∀ z, (collapsed 2 fun q => decide (q = 1)).vec z = if z 0 = false ∧ z 1 = true then 1 else 0 := by
      intro z
      rw [hv0]
      have : (∀ q < 2, z q = decide (q = 1)) ↔ z 0 = false ∧ z 1 = true := by
        constructor
        · intro h; exact ⟨h 0 (by omega), h 1 (by omega)⟩
        · rintro ⟨h0, h1⟩ q hq
          obtain rfl | rfl : q = 0 ∨ q = 1 := by omega
          · simpa using h0
          · simpa using h1
      simp only [this]
    generalize collapsed 2 (fun q => decide (q = 1)) = st at *
    have hm : exJump.dampMatrix true false = mat1 1 0 0 0 := by simp [StochNoise.dampMatrix, exJump]
    have hm' : exJump.dampMatrix true true = mat1 0 0 0 0 := by simp [StochNoise.dampMatrix, exJump]
    obtain ⟨tmp, h1, h2⟩ := step_damp (N := exJump) rfl (t := 0) (n := 2) (by omega) true hst
    have hvec : (tmp false).vec = st.vec := by
      rw [(h1 false).2.1, hm]
      funext z
      simp only [app1, Fintype.sum_bool, hv0]
      cases h0 : z 0 <;> cases h1 : z 1 <;> simp [mat1, h1]
    have hw0 : (tmp false).w ≠ 0 := by
      intro h
      have : (tmp false).vec (fun q => decide (q = 1)) = 0 := by simp [Edge.vec, h]
      rw [hvec, hv0] at this
      simp at this
    have hw : normSq (tmp false).w = 1 := by
      rw [← nrm_vec (h1 false).1, hvec]
      unfold nrm
      simp [hv0, sumB]
    have hst' := unit_can (h1 false).1 hw0
    have hv1 : ∀ z : Bits, z 1 = false → (⟨(tmp false).p, 1⟩ : VEdge).vec z = 0 := by
      intro z hz
      have : (tmp false).vec z = 0 := by
        rw [hvec, hv0, if_neg (by simp [hz])]
      simpa [Edge.vec, hw0] using this
    obtain ⟨tmp', k1, k2⟩ := step_damp (N := exJump) rfl (t := 1) (n := 2) (by omega) true hst'
    have kz : ∀ b, (tmp' b).w = 0 := by
      intro b
      have : app1 (exJump.dampMatrix true b) 1 (⟨(tmp false).p, 1⟩ : VEdge).vec = fun _ => 0 := by
        funext z
        cases b
        · rw [hm]
          simp only [app1, Fintype.sum_bool, hv1 (update z 1 false) (by simp)]
          cases z 1 <;> simp [mat1]
        · rw [hm']
          simp only [app1, Fintype.sum_bool]
          cases z 1 <;> simp [mat1]
      have h := (k1 b).2.2
      rw [this] at h
      rw [← Complex.normSq_eq_zero, h]
      simp [nrm, sumB_zero]
    have hnu : ¬ (1 : ℝ) < u := by linarith
    simp only [StochNoise.apply, StochNoise.loop, List.length_cons, List.length_nil]
    norm_num
    rw [h2]
    simp only [Rand.bind, Rand.runWith, hw, hnu, decide_false]
    rw [k2]
    simp [Rand.bind, Rand.runWith, (k1 _).1.1 (kz _)]
  · have := h.2 one_ne_zero
    cases this

/-- Depolarisation before amplitude damping. -/
def exOrder : StochNoise := ⟨1, 1, 1, [.depol, .ampDamp]⟩

/-- **C87 (counterexample: order of effects).** The operators are drawn again after it has been decided that a damping event
occurs. With depolarisation before amplitude damping, the new choice may make the event impossible: the state is lost. -/
theorem c87_order : StochNoise.make 1 1 1 ['D', 'A'] = .ok exOrder ∧
    (exOrder.apply 1 [0] ⟨.term, 1⟩ (ones 1)).runWith [7 / 8, 1 / 2, 1 / 8] = some (some ⟨.term, 1⟩) ∧
    ¬ VECan 1 ⟨.term, 1⟩ := by
  refine ⟨by rw [c87_make]; norm_num [exOrder, letter], ?_, fun h => ?_⟩
  · obtain ⟨hst, hv0⟩ := collapsed_spec 1 fun _ => true
    have hr := rep_self (t := 0) (mecan_one (n := 1))
    have hm : exOrder.dampMatrix false false = mat1 1 0 0 0 := by simp [StochNoise.dampMatrix, exOrder]
    have hm' : exOrder.dampMatrix false true = mat1 0 1 0 0 := by simp [StochNoise.dampMatrix, exOrder]
    obtain ⟨s, h1, h2⟩ := stack_spec (by omega) hr (exOrder.dampMatrix false false)
    obtain ⟨sx, i1, i2⟩ := stack_spec (by omega) hr Pauli.X.mat
    obtain ⟨s', j1, j2⟩ := stack_spec (by omega) i2 (exOrder.dampMatrix false true)
    obtain ⟨tmp, k1, k2, k3, k4⟩ := rep_mvmul h2 hst
    obtain ⟨tmp', l1, l2, l3, l4⟩ := rep_mvmul j2 hst
    rw [matVec_one hst] at k4 l4
    have z1 : normSq tmp.w = 0 := by
      rw [k4]
      have : app1 (exOrder.dampMatrix false false * 1) 0 (collapsed 1 fun _ => true).vec = fun _ => 0 := by
        funext z
        rw [hm, mul_one]
        simp only [app1, Fintype.sum_bool, hv0]
        cases z 0 <;> simp [mat1]
      rw [this]
      simp [nrm, sumB_zero]
    have z2 : normSq tmp'.w = 0 := by
      rw [l4]
      have : app1 (exOrder.dampMatrix false true * (Pauli.X.mat * 1)) 0 (collapsed 1 fun _ => true).vec = fun _ => 0 := by
        funext z
        rw [hm', mul_one, Pauli.mat, MQT.IR.mat1_mul]
        simp only [app1, Fintype.sum_bool, hv0]
        cases z 0 <;> simp [mat1]
      rw [this]
      simp [nrm, sumB_zero]
    have p1 : exOrder.returnNoiseOperation .depol (7 / 8) false = .I := by
      simp only [StochNoise.returnNoiseOperation, StochNoise.getNoiseProbability, exOrder]
      norm_num
    have p2 : exOrder.returnNoiseOperation .depol (1 / 8) false = .X := by
      simp only [StochNoise.returnNoiseOperation, StochNoise.getNoiseProbability, exOrder]
      norm_num
    have eff : exOrder.effects = [.depol, .ampDamp] := rfl
    simp only [StochNoise.apply, StochNoise.loop, List.length_singleton, StochNoise.stepTarget, eff, StochNoise.generate,
      Rand.bind, Rand.runWith]
    norm_num
    simp only [p1, if_true, h1, Rand.bind, Option.bind_some, ones, k1, z1, Rand.runWith]
    norm_num
    simp only [Rand.bind, Rand.runWith, p2]
    simp [i1, j1, l1, multiplyUnit, Rand.runWith, l2.1 (Complex.normSq_eq_zero.1 z2)]
  · have := h.2 one_ne_zero
    cases this

end MQT.DD
