import Verif.Opt.Fusion
import Verif.Props.Opt

/-! C80: fusing single-qubit gates. -/

set_option autoImplicit false
set_option linter.unusedSectionVars false

namespace MQT.Opt

open MQT.IR
open Function (update)

/-- **C80.** On a circuit whose top-level operations are gates, barriers, blocks or operations on
several qubits (no single-qubit measurement, reset or classically controlled gate), all of them on
at least one qubit, single-qubit gate fusion succeeds and preserves the action of the circuit.
Missing from C80: circuits with single-qubit measurements, resets or classically controlled gates
(`c80_fails_for_measurements`), classically controlled blocks (`c80_fails_around_controlled_blocks`),
operations on no qubit (`c80_throws`). -/
theorem c80_fusion_partial (n : ℕ) (ops : List (Op ℝ)) (hv : Op.ValidL ops)
    (hp : ∀ e ∈ ops, e.plain = true) (hr : ∀ e ∈ ops, ∀ q ∈ e.usedQ, q < n)
    (hs : ∀ e ∈ ops, ¬ Solo e) (hq : ∀ e ∈ ops, ¬ NoQubit e) :
    ∃ ops', singleQubitGateFusion n ops = some ops' ∧ Op.ValidL ops' ∧ run ops' = run ops := by
  rcases fusion_correct hv hp hr with ⟨-, e, he, h⟩ | ⟨ops', h1, -, h3 | ⟨-, e, he, h⟩⟩
  · exact absurd h (hq e he)
  · exact ⟨ops', h1, h3.1, h3.2⟩
  · exact absurd h (hs e he)

/-- **C80.** With single-qubit measurements, resets and classically controlled gates: whenever the
result consists of meaningful operations, it is the same circuit. -/
theorem c80_meaningful_partial (n : ℕ) (ops ops' : List (Op ℝ)) (hv : Op.ValidL ops)
    (hp : ∀ e ∈ ops, e.plain = true) (hr : ∀ e ∈ ops, ∀ q ∈ e.usedQ, q < n)
    (h : singleQubitGateFusion n ops = some ops') (hv' : Op.ValidL ops') : run ops' = run ops := by
  rcases fusion_correct hv hp hr with ⟨h1, -⟩ | ⟨ops'', h1, -, h3 | ⟨h3, -⟩⟩
  · rw [h] at h1; cases h1
  · rw [h] at h1; injection h1 with h1; subst h1; exact h3.2
  · rw [h] at h1; injection h1 with h1; subst h1; exact absurd hv' h3

/-- **C80.** The pass throws exactly when some standard operation has neither targets nor controls
(a global phase gate, an empty barrier). -/
theorem c80_throws (n : ℕ) (ops : List (Op ℝ)) (hv : Op.ValidL ops)
    (hp : ∀ e ∈ ops, e.plain = true) (hr : ∀ e ∈ ops, ∀ q ∈ e.usedQ, q < n) :
    singleQubitGateFusion n ops = none ↔ ∃ e ∈ ops, NoQubit e := by
  rcases fusion_correct hv hp hr with ⟨h1, h2⟩ | ⟨ops', h1, h2, -⟩
  · exact ⟨fun _ => h2, fun _ => h1⟩
  · rw [h1]
    exact ⟨fun h => (Option.some_ne_none _ h).elim, fun ⟨e, he, h⟩ => absurd h (h2 e he)⟩

/-- Fusing three gates around a CNOT on other qubits, and cancelling `S`/`Sdg` and `H`/`H`. -/
example : singleQubitGateFusion 3 [gate (P := ℚ) .h [0], cxOp 1 2, gate .t [0], gate .x [0]] =
    some [.compound [gate .h [0], gate .t [0], gate .x [0]] false, cxOp 1 2] ∧
    singleQubitGateFusion 2 [gate (P := ℚ) .x [0], gate .h [0], gate .s [0], gate .sdg [0], gate .h [0],
      gate .z [1]] = some [gate .x [0], gate .z [1]] ∧
    singleQubitGateFusion 2 [gate (P := ℚ) .h [0], gate .h [0], gate .z [0], gate .h [1]] =
      some [gate .z [0], gate .h [1]] ∧
    singleQubitGateFusion 2 [gate (P := ℚ) .h [0], cxOp 0 1, gate .h [0]] =
      some [gate .h [0], cxOp 0 1, gate .h [0]] :=
  ⟨rfl, rfl, rfl, rfl⟩

theorem gate_valid {ty : OpType} {q : ℕ} {M : Mat1} (hs : ty.isSingleQubitGate = true)
    (h : gate1 ty [] = some M) : (gate (P := ℝ) ty [q]).Valid := by
  rw [gate, Op.Valid]
  exact ⟨⟨by simp, by simp [ctrlQubits]⟩, _, StdOp.denote_single_of (q := q) (M := M) hs rfl h⟩

/-- The property fails for measured circuits: a Hadamard gate after a measurement turns the
measurement into a "gate" of type measure that has lost its classical bit. -/
theorem c80_fails_for_measurements : ∃ ops ops' : List (Op ℝ), Op.ValidL ops ∧
    (∀ e ∈ ops, e.plain = true) ∧ (∀ e ∈ ops, ∀ q ∈ e.usedQ, q < 1) ∧
    singleQubitGateFusion 1 ops = some ops' ∧
    ops' = [.compound [.std { type := .measure, targets := [0] }, gate .h [0]] false] ∧
    run ops' ≠ run ops := by
  refine ⟨[.measure [0] [0], gate .h [0]],
    [.compound [.std { type := .measure, targets := [0] }, gate .h [0]] false], ?_, by decide, by decide, rfl, rfl, ?_⟩
  · rw [Op.ValidL, Op.ValidL]
    exact ⟨trivial, gate_valid rfl rfl, trivial⟩
  · intro h
    have h1 := congrFun h (cfg0 (basisAt []))
    rw [run_singleton, run_compound, run_cons] at h1
    have e0 : exec (.std { type := .measure, targets := [0] }) (cfg0 (basisAt [])) = none := by
      rw [exec]; rfl
    rw [e0, run_cons, exec, Option.bind_some, run_singleton, gate1_exec rfl rfl] at h1
    cases h1

/-- `x q; if (c) { z q; } x q`. -/
def hiddenPhase : List (Op ℝ) :=
  [gate .x [0], .classic (fun m => m 0) (.compound [gate .z [0]] false), gate .x [0]]

/-- The property fails for classically controlled blocks, which have no qubits for the pass: the
gates around the block are cancelled. -/
theorem c80_fails_around_controlled_blocks : ∃ ops ops' : List (Op ℝ), Op.ValidL ops ∧
    (∀ e ∈ ops, ∀ q ∈ e.acts, q < 1) ∧ (∀ e ∈ ops, ¬ NoQubit e) ∧
    singleQubitGateFusion 1 ops = some ops' ∧ run ops' ≠ run ops := by
  refine ⟨hiddenPhase, [.classic (fun m => m 0) (.compound [gate .z [0]] false)], ?_, by decide, ?_, rfl, ?_⟩
  · rw [hiddenPhase, Op.ValidL, Op.ValidL, Op.ValidL, Op.Valid, Op.Valid, Op.ValidL]
    exact ⟨gate_valid rfl rfl, ⟨gate_valid rfl rfl, trivial⟩, gate_valid rfl rfl, trivial⟩
  · intro e he
    simp only [hiddenPhase, List.mem_cons, List.not_mem_nil, or_false] at he
    rcases he with rfl | rfl | rfl <;> simp [NoQubit, gate]
  · intro h
    have h1 := congrFun h (cfg0 (basisAt [(0, false)]))
    have hx : ∀ c : Cfg, c.mem 0 = true →
        exec (.classic (fun m => m 0) (.compound [gate .z [0]] false)) c =
          some (c.mapSt (app1 (mat1 1 0 0 (-1)) 0)) := by
      intro c hc
      rw [exec]
      simp only [hc, if_true]
      rw [run_compound, run_singleton, gate1_exec (M := mat1 1 0 0 (-1)) rfl rfl]
    rw [hiddenPhase, run_singleton, hx _ rfl, run_cons, gate1_exec (M := mat1 0 1 1 0) rfl rfl,
      Option.bind_some, run_cons, hx _ rfl, Option.bind_some, run_singleton,
      gate1_exec (M := mat1 0 1 1 0) rfl rfl] at h1
    injection h1 with h1
    have h2 := congrFun (congrArg Cfg.st h1) (bitsAt [])
    simp [Cfg.mapSt, app1, mat1, cfg0, basisAt, bitsAt] at h2
    norm_num at h2

/-- A global phase gate makes the pass throw. -/
example : singleQubitGateFusion 1 [gate (P := ℚ) .h [0], .std { type := .gphase, params := [1], targets := [] }] =
    none := rfl

end MQT.Opt
