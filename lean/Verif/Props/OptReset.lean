import Verif.Opt.ElimReset
import Verif.Props.OptFusion

/-! C81: eliminating resets.

A reset draws a random outcome and leaves the qubit in `|0⟩`; the pass uses a fresh qubit instead
and leaves the old one alone.  The two circuits agree when the outcome of each reset is read off the
qubit that was given up: for all outcomes of the measurements, all outcomes `rs` of the resets and
all basis states, the amplitude of the original circuit is the amplitude of the new circuit at the
basis state that has the qubits at their current places and `rs` on the qubits given up. -/

set_option autoImplicit false
set_option linter.unusedSectionVars false

namespace MQT.Opt

open MQT.IR
open Function (update)

/-- **C81.** Amplitudes, classical memory and remaining outcomes of the two circuits agree; no reset
is left; places and qubits given up partition the qubits of the new circuit.
Missing from C81: nested compound operations and classically controlled blocks
(`c81_fails_for_nested_blocks`, `c81_fails_for_controlled_blocks`), resets in compound operations before
the first reset at top level (`c81_leaves_resets`), circuits with ancillary qubits (`c81_throws`). -/
theorem c81_amplitudes_partial (n : ℕ) (ops : List (Op ℝ)) (hv : Op.ValidL ops)
    (he : ∀ e ∈ ops, Flat e) (hu : ∀ e ∈ ops, ∀ q ∈ e.acts, q < n) (hr : ResetsSeen ops) :
    ∃ S ops', eliminateResets n 0 ops = some (S, ops') ∧ Places n S ∧ (∀ o ∈ ops', NoReset o) ∧
      ∀ c, Supp n c.st → ∃ d d', run ops c = some d ∧
        run ops' { c with orc := measOrc (drawsL ops) c.orc } = some d' ∧ d'.mem = d.mem ∧
        d'.orc = d.orc ∧ Supp S.next d'.st ∧
        ∀ x y, Spreads n S (resetOuts (drawsL ops) c.orc) x y → d.st x = d'.st y := by
  obtain ⟨S, ops', h1, h2, h3, h4⟩ := eliminateResets_correct hv he hu hr
  refine ⟨S, ops', h1, h2, h3, fun c hc => ?_⟩
  obtain ⟨d, d', a1, a2, a3, a4, a5⟩ := h4 c hc
  exact ⟨d, d', a1, a2, a3, a4, a5.supp, a5.amp⟩

/-- **C81.** For every outcome `o` of the measurements, the probability (squared norm) of the new
circuit is the sum over the outcomes of the resets of the probability of the original circuit, and
the classical memory is the same. -/
theorem c81_probabilities_partial (n : ℕ) (ops : List (Op ℝ)) (hv : Op.ValidL ops)
    (he : ∀ e ∈ ops, Flat e) (hu : ∀ e ∈ ops, ∀ q ∈ e.acts, q < n) (hr : ResetsSeen ops) :
    ∃ S ops', eliminateResets n 0 ops = some (S, ops') ∧ S.left.length = (drawsL ops).count true ∧
      ∀ ψ mem o, Supp n ψ → ∃ (d : List Bool → Cfg) (d' : Cfg),
        run ops' ⟨ψ, mem, o⟩ = some d' ∧
        (∀ rs, rs.length = S.left.length →
          run ops ⟨ψ, mem, weave (drawsL ops) rs o⟩ = some (d rs) ∧ (d rs).mem = d'.mem) ∧
        ∑ r : Fin S.left.length → Bool, weight n (d (List.ofFn r)).st = weight S.next d'.st := by
  obtain ⟨S, ops', h1, h2, -, h4⟩ := eliminateResets_correct hv he hu hr
  have hlen : S.left.length = (drawsL ops).count true := by
    obtain ⟨d, d', -, -, -, -, h⟩ := h4 ⟨fun _ => 0, fun _ => true, fun _ => true⟩ (fun _ _ _ _ => rfl)
    rw [← h.len, resetOuts_length]
  refine ⟨S, ops', h1, hlen, fun ψ mem o hψ => ?_⟩
  have key : ∀ rs : List Bool, rs.length = S.left.length → ∃ d d',
      run ops ⟨ψ, mem, weave (drawsL ops) rs o⟩ = some d ∧ run ops' ⟨ψ, mem, o⟩ = some d' ∧
        d'.mem = d.mem ∧ Sim n S rs d.st d'.st := by
    intro rs hrs
    obtain ⟨d, d', a1, a2, a3, a4, a5⟩ := h4 ⟨ψ, mem, weave (drawsL ops) rs o⟩ hψ
    simp only [measOrc_weave _ _ _ (hrs.trans hlen)] at a2
    rw [resetOuts_weave _ _ _ (hrs.trans hlen)] at a5
    exact ⟨d, d', a1, a2, a3, a5⟩
  obtain ⟨-, d', -, hd', -, -⟩ := key (List.replicate S.left.length true) (by simp)
  have key' : ∀ rs : List Bool, ∃ d, rs.length = S.left.length →
      run ops ⟨ψ, mem, weave (drawsL ops) rs o⟩ = some d ∧ d.mem = d'.mem ∧ Sim n S rs d.st d'.st := by
    intro rs
    by_cases hrs : rs.length = S.left.length
    · obtain ⟨d, d'', a1, a2, a3, a4⟩ := key rs hrs
      rw [hd'] at a2
      injection a2 with a2
      subst a2
      exact ⟨d, fun _ => ⟨a1, a3.symm, a4⟩⟩
    · exact ⟨d', fun h => absurd h hrs⟩
  choose d hd using key'
  refine ⟨d, d', hd', fun rs hrs => ⟨(hd rs hrs).1, (hd rs hrs).2.1⟩, ?_⟩
  exact weight_sum h2 (ψ := fun rs => (d rs).st) fun rs hrs => (hd rs hrs).2.2

/-- The reset outcomes and the remaining outcomes determine the supply and vice versa, so the sum
in `c81_probabilities_partial` runs over all ways the original circuit can go. -/
theorem c81_outcomes (t : List Bool) (o : ℕ → Bool) :
    weave t (resetOuts t o) (measOrc t o) = o ∧
    ∀ rs o', rs.length = t.count true →
      resetOuts t (weave t rs o') = rs ∧ measOrc t (weave t rs o') = o' :=
  ⟨weave_split t o, fun rs o' h => ⟨resetOuts_weave t rs o' h, measOrc_weave t rs o' h⟩⟩

/-- Measure, reset and reuse a qubit, with a gate controlled on it; then reset it again. -/
example : (eliminateResets 2 0 [gate (P := ℚ) .h [0], .measure [0] [0], .reset [0], cxOp 0 1,
      .compound [.reset [0], gate .x [0]] false, .measure [0] [1]]).map (fun r => (r.1.next, r.1.left, r.2)) =
    some (4, [0, 2], [gate .h [0], .measure [0] [0], cxOp 2 1, .compound [gate .x [3]] false,
      .measure [3] [1]]) := rfl

/-- With ancillary qubits the pass throws at the first reset. -/
theorem c81_throws (n anc q : ℕ) (qs : List ℕ) (l ops : List (Op ℝ)) (ha : anc ≠ 0)
    (hl : ∀ e ∈ l, e.type ≠ .reset) : eliminateResets n anc (l ++ .reset (q :: qs) :: ops) = none := by
  unfold eliminateResets
  have h0 : (ResetState.init n).any = false := rfl
  generalize ResetState.init n = S at h0
  induction l with
  | nil =>
    rw [List.nil_append, elimOps, elimOp, List.foldlM_cons, newQubit, if_neg ha]
    rfl
  | cons e l ih =>
    have he := hl e (by simp)
    have e1 : elimOp anc S e = some (S, [e]) := by
      match e with
      | .reset qs => exact absurd rfl he
      | .compound ps cu => rw [elimOp, if_neg (by rw [h0]; decide)]
      | .std _ => rw [elimOp, if_neg (by rw [h0]; decide)] <;> (intros; contradiction)
      | .measure _ _ => rw [elimOp, if_neg (by rw [h0]; decide)] <;> (intros; contradiction)
      | .classic _ _ => rw [elimOp, if_neg (by rw [h0]; decide)] <;> (intros; contradiction)
    rw [List.cons_append, elimOps, e1, Option.bind_some, ih fun e' h => hl e' (List.mem_cons_of_mem _ h)]
    rfl

/-- A reset inside a compound operation is not eliminated when no reset came before. -/
theorem c81_leaves_resets : ∃ (ops ops' : List (Op ℝ)) (S : ResetState),
    eliminateResets 1 0 ops = some (S, ops') ∧ ¬ ∀ o ∈ ops', NoReset o :=
  ⟨[.compound [.reset [0]] false], [.compound [.reset [0]] false], ResetState.init 1, rfl,
    fun h => (h _ (List.mem_singleton.2 rfl)).2 ⟨.reset [0], List.mem_singleton.2 rfl, rfl⟩⟩

/-- Qubits 0 and 1 in `|0⟩`, the classical memory all ones, the given outcomes. -/
noncomputable def start (o : ℕ → Bool) : Cfg :=
  { st := basisAt [(0, false), (1, false)], mem := fun _ => true, orc := o }

theorem x_exec (c : Cfg) (q : ℕ) : exec (gate .x [q]) c = some (c.mapSt (app1 (mat1 0 1 1 0) q)) :=
  gate1_exec rfl rfl c

/-- Reset (outcome 0), flip, measure (outcome 1) leaves amplitude one. -/
theorem reset_flip_measure {e : Op ℝ} (he : ∀ c : Cfg, c.mem 0 = true → exec e c = exec (gate .x [0]) c) :
    ∃ d, run [.reset [0], e, .measure [0] [0]] (start fun k => decide (k = 1)) = some d ∧
      d.st (bitsAt [0]) = 1 := by
  refine ⟨measure1 0 0 ((reset1 0 (start fun k => decide (k = 1))).mapSt (app1 (mat1 0 1 1 0) 0)), ?_, ?_⟩
  · rw [run_cons, exec, Option.bind_some, run_cons, he _ rfl, x_exec, Option.bind_some, run_singleton, exec]
    rfl
  · simp [measure1, reset1, Cfg.mapSt, app1, projM, mat1, start, bitsAt, basisAt]

/-- Flip qubit 0, then measure qubit 1 with outcome 1: impossible from `|00⟩`. -/
theorem flip_measure_other {e : Op ℝ} (he : ∀ c : Cfg, c.mem 0 = true → exec e c = exec (gate .x [0]) c) :
    ∃ d, run [e, .measure [1] [0]] (start fun _ => true) = some d ∧
      d.st = fun _ => 0 := by
  refine ⟨measure1 1 0 ((start fun _ => true).mapSt (app1 (mat1 0 1 1 0) 0)), ?_, ?_⟩
  · rw [run_cons, he _ rfl, x_exec, Option.bind_some, run_singleton, exec]
    rfl
  · funext x
    simp [measure1, Cfg.mapSt, app1, projM, mat1, start, basisAt]

/-- The property fails for nested compound operations: their parts are not rewired.  After the reset
(outcome 0) the flip makes the measurement give 1 with certainty, whereas the new circuit flips
the qubit that was given up and never measures 1. -/
theorem c81_fails_for_nested_blocks : ∃ (ops ops' : List (Op ℝ)) (S : ResetState),
    Op.ValidL ops ∧ (∀ e ∈ ops, ∀ q ∈ e.acts, q < 1) ∧ eliminateResets 1 0 ops = some (S, ops') ∧
    (∃ d, run ops (start fun k => decide (k = 1)) = some d ∧ d.st (bitsAt [0]) = 1) ∧
    ∃ d', run ops' (start fun _ => true) = some d' ∧
      d'.st = fun _ => 0 := by
  have he : ∀ c : Cfg, c.mem 0 = true →
      exec (.compound [.compound [gate .x [0]] false] false) c = exec (gate .x [0]) c := by
    intro c _
    rw [run_compound, run_singleton, run_compound, run_singleton]
  refine ⟨[.reset [0], .compound [.compound [gate .x [0]] false] false, .measure [0] [0]],
    [.compound [.compound [gate .x [0]] false] false, .measure [1] [0]], (ResetState.init 1).push 0, ?_,
    by decide, rfl, reset_flip_measure he, flip_measure_other he⟩
  rw [Op.ValidL, Op.ValidL, Op.ValidL, Op.Valid, Op.Valid, Op.ValidL, Op.Valid, Op.ValidL]
  exact ⟨trivial, ⟨⟨gate_valid rfl rfl, trivial⟩, trivial⟩, trivial, trivial⟩

/-- The same for a classically controlled block `if (c) { … }`. -/
theorem c81_fails_for_controlled_blocks : ∃ (ops ops' : List (Op ℝ)) (S : ResetState),
    Op.ValidL ops ∧ (∀ e ∈ ops, ∀ q ∈ e.acts, q < 1) ∧ eliminateResets 1 0 ops = some (S, ops') ∧
    (∃ d, run ops (start fun k => decide (k = 1)) = some d ∧ d.st (bitsAt [0]) = 1) ∧
    ∃ d', run ops' (start fun _ => true) = some d' ∧
      d'.st = fun _ => 0 := by
  have he : ∀ c : Cfg, c.mem 0 = true →
      exec (.classic (fun m => m 0) (.compound [gate .x [0]] false)) c = exec (gate .x [0]) c := by
    intro c hc
    rw [exec, if_pos hc, run_compound, run_singleton]
  refine ⟨[.reset [0], .classic (fun m => m 0) (.compound [gate .x [0]] false), .measure [0] [0]],
    [.classic (fun m => m 0) (.compound [gate .x [0]] false), .measure [1] [0]], (ResetState.init 1).push 0,
    ?_, by decide, rfl, reset_flip_measure he, flip_measure_other he⟩
  rw [Op.ValidL, Op.ValidL, Op.ValidL, Op.Valid, Op.Valid, Op.Valid, Op.ValidL]
  exact ⟨trivial, ⟨gate_valid rfl rfl, trivial⟩, trivial, trivial⟩

end MQT.Opt
