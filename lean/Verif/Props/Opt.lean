import Verif.Opt.RemoveDiagonalProof
import Verif.Opt.CancelCNOTs

/-! C23 - C29: the circuit optimisation passes.

`run l c = run l' c` for every configuration `c` (state, classical memory, supply of measurement
outcomes) means: the same probability for every sequence of outcomes, the same resulting state and
the same classical memory. -/

set_option autoImplicit false
set_option linter.unusedSectionVars false

namespace MQT.Opt

open MQT.IR
open Function (update)

/-- A short name for an operation without controls and parameters. -/
def gate {P : Type} (ty : OpType) (ts : List ℕ) : Op P := .std { type := ty, targets := ts }

/-- The state in which the qubits listed in `l` have the given values (and the others any). -/
noncomputable def basisAt (l : List (ℕ × Bool)) : State := fun x => if ∀ p ∈ l, x p.1 = p.2 then 1 else 0

/-- The bits that are one exactly on the listed qubits. -/
def bitsAt (l : List ℕ) : Bits := fun q => decide (q ∈ l)

noncomputable def cfg0 (st : State) : Cfg := { st := st, mem := fun _ => true, orc := fun _ => false }

theorem gate1_exec {ty : OpType} {q : ℕ} {M : Mat1} (hs : ty.isSingleQubitGate = true)
    (h : gate1 ty [] = some M) (c : Cfg) : exec (gate ty [q]) c = some (c.mapSt (app1 M q)) := by
  rw [gate, exec, StdOp.denote_single_of (q := q) (M := M) hs rfl h, ctl_empty]
  rfl

/-! ### C23 -/

/-- **C23.** SWAP reconstruction never fails and preserves the action of every circuit whose
classically controlled operations do not wrap compound operations. -/
theorem c23_swap_reconstruction_partial (n : ℕ) (ops : List (Op ℝ)) (hv : Op.ValidL ops)
    (hp : ∀ e ∈ ops, e.plain = true) (hr : ∀ e ∈ ops, ∀ q ∈ e.usedQ, q < n) :
    ∃ ops', swapReconstruction n ops = some ops' ∧ run ops' = run ops :=
  swapReconstruction_correct hv hp hr

/-- Three CNOTs around an unrelated gate become a SWAP. -/
example : swapReconstruction 3 [cxOp (P := ℚ) 0 1, gate .h [2], cxOp 1 0, cxOp 0 1] =
    some [gate .swap [0, 1], gate .h [2]] := rfl

/-- A gate in between on one of the qubits prevents the rewriting. -/
example : swapReconstruction 2 [cxOp (P := ℚ) 0 1, gate .h [1], cxOp 0 1] =
    some [cxOp (P := ℚ) 0 1, gate .h [1], cxOp 0 1] := rfl

/-- `cx(0,1); if (c) { x q[0]; } cx(0,1)` as the OpenQASM importer builds it. -/
def hiddenFlip : List (Op ℝ) := [cxOp 0 1, .classic (fun m => m 0) (.compound [gate .x [0]] false), cxOp 0 1]

theorem hiddenFlip_valid : Op.ValidL hiddenFlip := by
  rw [Op.validL_iff]
  intro e he
  simp only [hiddenFlip, List.mem_cons, List.not_mem_nil, or_false] at he
  rcases he with rfl | rfl | rfl
  · exact cx_valid (by decide)
  · rw [Op.Valid, Op.Valid, Op.ValidL, gate, Op.Valid, Op.ValidL]
    exact ⟨⟨⟨by simp, by simp [ctrlQubits]⟩, _, StdOp.denote_single_of (q := 0) (M := mat1 0 1 1 0) rfl rfl rfl⟩,
      trivial⟩
  · exact cx_valid (by decide)

theorem flip_app (ψ : State) (q : ℕ) (x : Bits) :
    app1 (mat1 0 1 1 0) q ψ x = ψ (update x q (!x q)) := by
  simp only [app1, Fintype.sum_bool, mat1]
  cases hx : x q <;> simp

/-- Dropping both CNOTs changes the circuit. -/
theorem hiddenFlip_changed :
    run hiddenFlip ≠ run [.classic (fun m => m 0) (.compound [gate .x [0]] false)] := by
  intro h
  have h1 := congrFun h (cfg0 (basisAt [(0, false), (1, false)]))
  have hx : ∀ c : Cfg, c.mem 0 = true →
      exec (.classic (fun m => m 0) (.compound [gate .x [0]] false)) c =
        some (c.mapSt (app1 (mat1 0 1 1 0) 0)) := by
    intro c hc
    rw [exec]
    simp only [hc, if_true]
    rw [run_compound, run_singleton, gate1_exec (M := mat1 0 1 1 0) rfl rfl]
  rw [hiddenFlip, run_cons, cxOp_exec, Option.bind_some, run_cons, hx _ rfl, Option.bind_some,
    run_singleton, run_singleton, cxOp_exec, hx _ rfl] at h1
  injection h1 with h1
  have h2 := congrFun (congrArg Cfg.st h1) (bitsAt [0, 1])
  simp [Cfg.mapSt, pull, cxMap, flip_app, cfg0, basisAt, bitsAt] at h2

/-- The property fails for classically controlled blocks: `getUsedQubits` of a classically controlled
compound operation is empty, so the pass cancels the two CNOTs around it. -/
theorem c23_fails_around_controlled_blocks : ∃ ops ops' : List (Op ℝ), Op.ValidL ops ∧
    (∀ e ∈ ops, ∀ q ∈ e.acts, q < 2) ∧ swapReconstruction 2 ops = some ops' ∧ run ops' ≠ run ops := by
  refine ⟨hiddenFlip, _, hiddenFlip_valid, ?_, rfl, fun h => hiddenFlip_changed h.symm⟩
  decide

/-! ### C24 -/

/-- **C24.** CNOT cancellation never fails and preserves the action of every circuit whose
classically controlled operations do not wrap compound operations. -/
theorem c24_cancel_cnots_partial (n : ℕ) (ops : List (Op ℝ)) (hv : Op.ValidL ops)
    (hp : ∀ e ∈ ops, e.plain = true) (hr : ∀ e ∈ ops, ∀ q ∈ e.usedQ, q < n) :
    ∃ ops', cancelCNOTs n ops = some ops' ∧ run ops' = run ops :=
  cancelCNOTs_correct hv hp hr

/-- Cancelling, rebuilding a SWAP, and pushing a CNOT through a SWAP. -/
example : cancelCNOTs 3 [cxOp (P := ℚ) 0 1, gate .h [2], cxOp 0 1] = some [gate .h [2]] ∧
    cancelCNOTs 2 [cxOp (P := ℚ) 0 1, cxOp 1 0, cxOp 0 1] = some [gate .swap [0, 1]] ∧
    cancelCNOTs 2 [gate (P := ℚ) .swap [0, 1], cxOp 0 1] = some [cxOp 0 1, cxOp 1 0] :=
  ⟨rfl, rfl, rfl⟩

theorem c24_fails_around_controlled_blocks : ∃ ops ops' : List (Op ℝ), Op.ValidL ops ∧
    (∀ e ∈ ops, ∀ q ∈ e.acts, q < 2) ∧ cancelCNOTs 2 ops = some ops' ∧ run ops' ≠ run ops := by
  refine ⟨hiddenFlip, _, hiddenFlip_valid, ?_, rfl, fun h => hiddenFlip_changed h.symm⟩
  decide

/-! ### C25 -/

/-- No SWAP is left where the pass looks (the circuit and its compound operations). -/
def NoSwapLeft : Op ℝ → Prop
  | .std o => o.type ≠ .swap
  | .compound ops _ => ∀ o, Op.std o ∈ ops → o.type ≠ .swap
  | _ => True

theorem decomposeStd_std {d : Bool} {o : StdOp ℝ} {l : List (Op ℝ)} (h : decomposeStd d o = some l)
    {e : Op ℝ} (he : e ∈ l) : ∃ o', e = .std o' := by
  rw [decomposeStd] at h
  split_ifs at h
  · split at h
    · injection h with h
      subst h
      unfold swapGates at he
      split_ifs at he
      · simp only [List.mem_cons, List.not_mem_nil, or_false] at he
        rcases he with rfl | rfl | rfl | rfl | rfl | rfl | rfl <;> exact ⟨_, rfl⟩
      · simp only [List.mem_cons, List.not_mem_nil, or_false] at he
        rcases he with rfl | rfl | rfl <;> exact ⟨_, rfl⟩
    · cases h
  · injection h with h
    subst h
    rw [List.mem_singleton] at he
    exact ⟨o, he⟩

/-- **C25.** SWAP decomposition, for both kinds of architecture: it never fails, leaves no SWAP and
preserves the action of every circuit in which no SWAP it replaces has controls. -/
theorem c25_decompose_swap_partial (directed : Bool) (ops : List (Op ℝ)) (hv : Op.ValidL ops)
    (hn : ∀ e ∈ ops, ReachedSwapsPlain e) :
    ∃ ops', decomposeSWAP directed ops = some ops' ∧ run ops' = run ops ∧ ∀ e ∈ ops', NoSwapLeft e := by
  rw [Op.validL_iff] at hv
  obtain ⟨l, h1, h2⟩ := concatMapM_run (f := decompose1 directed) (ops := ops)
    fun e he => decompose1_correct (hv e he) (hn e he)
  refine ⟨l, h1, h2, fun e he => ?_⟩
  obtain ⟨a, -, r, h3, h4⟩ := concatMapM_mem h1 he
  match a with
  | .std o =>
    have h5 := decomposeStd_no_swap h3 h4
    obtain ⟨o', rfl⟩ := decomposeStd_std h3 h4
    exact h5
  | .compound ps b =>
    rw [decompose1, Option.map_eq_some_iff] at h3
    obtain ⟨l', h3, rfl⟩ := h3
    simp only [List.mem_singleton] at h4
    subst h4
    intro o ho
    obtain ⟨a, -, r, h5, h6⟩ := concatMapM_mem h3 ho
    match a with
    | .std o' =>
      exact decomposeStd_no_swap h5 h6
    | .compound _ _ => injection h5 with h5; subst h5; simp at h6
    | .measure _ _ => injection h5 with h5; subst h5; simp at h6
    | .reset _ => injection h5 with h5; subst h5; simp at h6
    | .classic _ _ => injection h5 with h5; subst h5; simp at h6
  | .measure _ _ => injection h3 with h3; subst h3; simp at h4; subst h4; trivial
  | .reset _ => injection h3 with h3; subst h3; simp at h4; subst h4; trivial
  | .classic _ _ => injection h3 with h3; subst h3; simp at h4; subst h4; trivial

example : decomposeSWAP true [gate (P := ℚ) .swap [3, 1], .compound [gate .swap [0, 1], gate .h [1]] true] =
    some [cxOp 3 1, hOp 1, hOp 3, cxOp 3 1, hOp 1, hOp 3, cxOp 3 1,
      .compound [cxOp 0 1, hOp 1, hOp 0, cxOp 0 1, hOp 1, hOp 0, cxOp 0 1, gate .h [1]] true] := rfl

/-- The property fails for controlled SWAPs: the controls are dropped. -/
theorem c25_fails_for_controlled_swap : ∃ ops ops' : List (Op ℝ), Op.ValidL ops ∧
    decomposeSWAP false ops = some ops' ∧ run ops' ≠ run ops := by
  refine ⟨[.std { type := .swap, controls := {(2, true)}, targets := [0, 1] }], swapGates false 0 1, ?_, rfl, ?_⟩
  · rw [Op.ValidL, Op.ValidL, Op.Valid]
    refine ⟨⟨⟨by decide, ?_⟩, _, StdOp.denote_two_of (q0 := 0) (q1 := 1) rfl rfl rfl⟩, trivial⟩
    decide
  · intro h
    have h1 := congrFun h (cfg0 (basisAt [(0, true), (1, false), (2, false)]))
    rw [run_swapGates (by decide), run_singleton, exec,
      StdOp.denote_two_of (q0 := 0) (q1 := 1) rfl rfl rfl] at h1
    injection h1 with h1
    have h2 := congrFun (congrArg Cfg.st h1) (bitsAt [0])
    simp [Cfg.mapSt, pull, swapMap, cfg0, basisAt, bitsAt, ctl, Sat] at h2

/-! ### C26 -/

/-- **C26.** Replacing MCX by H·MCZ·H never fails, leaves no controlled X at any depth and preserves
the action of every circuit. -/
theorem c26_replace_mcx (ops : List (Op ℝ)) (hv : Op.ValidL ops) :
    ∃ ops', mczOps ops = some ops' ∧ run ops' = run ops ∧ noMCXL ops' = true :=
  mczOps_correct ops hv

example : mczOps [gate (P := ℚ) .x [3],
      .compound [.std { type := .x, controls := {(0, true), (2, false)}, targets := [1] }] false] =
    some [gate .x [3],
      .compound [hOp 1, .std { type := .z, controls := {(0, true), (2, false)}, targets := [1] }, hOp 1] false] :=
  rfl

/-! ### C27 -/

/-- **C27.** If the pass returns, then for every input state, every classical memory and every
sequence of measurement outcomes the resulting state (whose squared norm is the joint
probability of these outcomes) changes at most by a phase and the classical memory not at all.  Circuits
without compound operations in which diagonal gates have one target and any controls. -/
theorem c27_remove_diagonal_partial (fuel n : ℕ) (ops ops' : List (Op ℝ)) (hg : ∀ e ∈ ops, Good e)
    (h : removeDiagonal fuel n ops = .ok ops') (c : Cfg) :
    ∃ r r', run ops c = some r ∧ run ops' c = some r' ∧ PhaseEq r' r :=
  removeDiagonal_correct hg h c

/-- **C27.** In particular every amplitude keeps its modulus. -/
theorem c27_remove_diagonal_norm_partial (fuel n : ℕ) (ops ops' : List (Op ℝ)) (hg : ∀ e ∈ ops, Good e)
    (h : removeDiagonal fuel n ops = .ok ops') (c : Cfg) :
    ∃ r r', run ops c = some r ∧ run ops' c = some r' ∧ ∀ x, ‖r'.st x‖ = ‖r.st x‖ := by
  obtain ⟨r, r', h1, h2, -, -, z, hz, h3⟩ := removeDiagonal_correct hg h c
  exact ⟨r, r', h1, h2, fun x => by rw [h3, norm_mul, hz, one_mul]⟩

/-- A Z on qubit 0 and a CZ are removed in front of the measurements; the Hadamard stays. -/
example : removeDiagonal 20 2 [gate (P := ℚ) .h [0], gate .z [0],
      .std { type := .z, controls := {(0, true)}, targets := [1] }, .measure [0, 1] [0, 1]] =
    .ok [gate (P := ℚ) .h [0], .measure [0, 1] [0, 1]] := rfl

/-- The hypothesis holds for this circuit. -/
example : ∀ e ∈ [gate .h [0], gate .z [0], .std { type := .z, controls := {(0, true)}, targets := [1] },
    .measure [0, 1] [0, 1]], Good e := by
  intro e he
  simp only [List.mem_cons, List.not_mem_nil, or_false] at he
  rcases he with rfl | rfl | rfl | rfl
  · exact ⟨⟨by decide, by decide⟩, ⟨_, StdOp.denote_single_of (q := 0) rfl rfl (gate1_h _)⟩, fun _ => rfl,
      by simp⟩
  · exact ⟨⟨by decide, by decide⟩, ⟨_, StdOp.denote_single_of (q := 0) rfl rfl rfl⟩, fun _ => rfl, by simp⟩
  · exact ⟨⟨by decide, by decide⟩, ⟨_, StdOp.denote_single_of (q := 1) rfl rfl rfl⟩, fun _ => rfl, by simp⟩
  · rfl

/-- `rzz(π) 0,1; h 1; z 1; measure`. -/
noncomputable def rzzCircuit : List (Op ℝ) :=
  [.std { type := .rzz, params := [Real.pi], targets := [0, 1] }, gate .h [1], gate .z [1], .measure [0, 1] [0, 1]]

theorem rzzCircuit_run (c : Cfg) {M : Mat2} (hM : gate2 .rzz [Real.pi] = some M) : run rzzCircuit c =
    some (measure1 1 1 (measure1 0 0 (((c.mapSt (app2 M 0 1)).mapSt (app1 hadM 1)).mapSt
      (app1 (mat1 1 0 0 (-1)) 1)))) := by
  rw [rzzCircuit, run_cons, exec, StdOp.denote_two_of (q0 := 0) (q1 := 1) (M := M) rfl rfl hM, Option.map_some,
    Option.bind_some, run_cons, gate1_exec (M := hadM) rfl (gate1_h _), Option.bind_some, run_cons,
    gate1_exec (M := mat1 1 0 0 (-1)) rfl rfl, Option.bind_some, run_singleton, exec, ctl_empty]
  rfl

theorem rzzCircuit_run' (c : Cfg) : run [gate .h [1], gate .z [1], .measure [0, 1] [0, 1]] c =
    some (measure1 1 1 (measure1 0 0 ((c.mapSt (app1 hadM 1)).mapSt (app1 (mat1 1 0 0 (-1)) 1)))) := by
  rw [run_cons, gate1_exec (M := hadM) rfl (gate1_h _), Option.bind_some, run_cons,
    gate1_exec (M := mat1 1 0 0 (-1)) rfl rfl, Option.bind_some, run_singleton, exec]
  rfl

/-- The property fails for two-qubit diagonal gates: an RZZ gate is removed because one of its qubits
has reached it, although a Hadamard separates it from the measurement of the other one.  An outcome of
probability zero becomes possible. -/
theorem c27_fails_for_two_target_gates : ∃ (ops ops' : List (Op ℝ)) (c r r' : Cfg), Op.ValidL ops ∧
    removeDiagonal 20 2 ops = .ok ops' ∧ run ops c = some r ∧ run ops' c = some r' ∧
    (∀ x, r.st x = 0) ∧ ∃ x, r'.st x ≠ 0 := by
  have hz : gate1 .z [] = some (mat1 1 0 0 (-1)) := rfl
  obtain ⟨M, hM⟩ : ∃ M, gate2 .rzz [Real.pi] = some M := ⟨_, rfl⟩
  refine ⟨rzzCircuit, [gate .h [1], gate .z [1], .measure [0, 1] [0, 1]], cfg0 (basisAt [(0, false)]), _, _, ?_,
    rfl, rzzCircuit_run _ hM, rzzCircuit_run' _, ?_, ?_⟩
  · rw [Op.validL_iff]
    intro e he
    simp only [rzzCircuit, List.mem_cons, List.not_mem_nil, or_false] at he
    rcases he with rfl | rfl | rfl | rfl
    · rw [Op.Valid]
      exact ⟨⟨by decide, by decide⟩, _, StdOp.denote_two_of (q0 := 0) (q1 := 1) rfl rfl rfl⟩
    · rw [gate, Op.Valid]
      exact ⟨⟨by decide, by decide⟩, _, StdOp.denote_single_of (q := 1) rfl rfl (gate1_h _)⟩
    · rw [gate, Op.Valid]
      exact ⟨⟨by decide, by decide⟩, _, StdOp.denote_single_of (q := 1) rfl rfl hz⟩
    · rw [Op.Valid]; trivial
  · intro x
    injection hM with hM
    subst hM
    simp [measure1, Cfg.mapSt, cfg0, basisAt, app1, app2, mat1, projM, hadM, Fintype.sum_prod_type]
    intro _ _
    have e1 : rzzMat Real.pi (false, true) (false, true) = ⟨0, 1⟩ := by simp [rzzMat, mat2]
    have e2 : rzzMat Real.pi (false, true) (false, false) = 0 := by simp [rzzMat, mat2]
    have e3 : rzzMat Real.pi (false, false) (false, true) = 0 := by simp [rzzMat, mat2]
    have e4 : rzzMat Real.pi (false, false) (false, false) = ⟨0, -1⟩ := by simp [rzzMat, mat2]
    rw [e1, e2, e3, e4]
    apply Complex.ext <;> simp
  · refine ⟨bitsAt [], ?_⟩
    simp [measure1, Cfg.mapSt, cfg0, basisAt, app1, mat1, projM, hadM, bitsAt]
    intro h
    have := r2_sq
    rw [h] at this
    norm_num at this

/-- The same inside a compound operation: its parts are removed without looking at their qubits. -/
example : removeDiagonal 20 2
      [.compound [gate (P := ℚ) .z [1], gate .z [0]] false, gate .h [1], gate .z [1], .measure [0, 1] [0, 1]] =
    .ok [gate .h [1], gate .z [1], .measure [0, 1] [0, 1]] := rfl

/-- The pass is not even defined on simple circuits: it dereferences (first circuit) or increments (second
circuit) an iterator that is already at the end. -/
theorem c27_undefined_behaviour :
    removeDiagonal 20 2 [.std { type := .z, params := ([] : List ℚ), controls := {(0, true)}, targets := [1] },
      gate .h [1], .measure [0, 1] [0, 1]] = .ub ∧
    removeDiagonal 20 2 [gate (P := ℚ) .h [1], gate .barrier [0, 1], .measure [0] [0]] = .ub := ⟨rfl, rfl⟩

/-! ### C28 -/

/-- **C28.** Permutation elision, for circuits whose classically controlled operations do not wrap
compound operations: it never fails; no uncontrolled SWAP is left at any depth; initial and output layout
keep their logical qubits; and from every logical input the same logical output is produced with the
same outcomes and classical memory. -/
theorem c28_elide_permutations_partial (qc : LQC ℝ) (hp : Op.plainL qc.ops = true) (hv : Op.ValidL qc.ops)
    (hd : ∀ q ∈ Op.usedQL qc.ops, ∃ p ∈ qc.initial, p.1 = q)
    (ho : ∀ p ∈ qc.output, ∃ p' ∈ qc.initial, p'.1 = p.1)
    (σ τ : Equiv.Perm ℕ) (hσ : LayExt qc.initial σ) (hτ : LayExt qc.output τ) :
    ∃ qc', elidePermutations qc = some qc' ∧ noSwapL qc'.ops = true ∧
      qc'.initial.map Prod.snd = qc.initial.map Prod.snd ∧
      qc'.output.map Prod.snd = qc.output.map Prod.snd ∧
      ∃ σ' τ', LayExt qc'.initial σ' ∧ LayExt qc'.output τ' ∧
        logicalRun σ' τ' qc'.ops = logicalRun σ τ qc.ops := by
  obtain ⟨qc', h1, h2, h3, h4, -⟩ := elide_ok hv hd ho
  exact ⟨qc', h1, h2, h3, h4, elide_correct h1 hp hv hσ hτ⟩

/-- A SWAP inside a compound operation disappears; the later gates are renamed; the output
permutation records it. -/
example : elidePermutations (P := ℚ)
      { ops := [gate .h [0], .compound [gate .swap [0, 1], cxOp 1 2] false, .measure [0] [0]]
        initial := [(0, 0), (1, 1), (2, 2)]
        output := [(0, 0), (1, 1), (2, 2)] } =
    some { ops := [gate .h [0], cxOp 0 2, .measure [1] [0]]
           initial := [(0, 0), (1, 1), (2, 2)]
           output := [(1, 0), (0, 1), (2, 2)] } := rfl

/-- `swap(0,1); if (c) { x q[0]; }` -/
def hiddenTarget : LQC ℝ :=
  { ops := [gate .swap [0, 1], .classic (fun m => m 0) (.compound [gate .x [0]] false)]
    initial := [(0, 0), (1, 1)]
    output := [(0, 0), (1, 1)] }

/-- The property fails for classically controlled blocks: their operations are not renamed. -/
theorem c28_fails_for_controlled_blocks : ∃ (qc qc' : LQC ℝ) (c : Cfg), Op.ValidL qc.ops ∧
    elidePermutations qc = some qc' ∧ LayExt qc.initial (Equiv.refl ℕ) ∧ LayExt qc.output (Equiv.refl ℕ) ∧
    LayExt qc'.initial (Equiv.refl ℕ) ∧ LayExt qc'.output (Equiv.swap 0 1) ∧
    logicalRun (Equiv.refl ℕ) (Equiv.swap 0 1) qc'.ops c ≠ logicalRun (Equiv.refl ℕ) (Equiv.refl ℕ) qc.ops c := by
  refine ⟨hiddenTarget, ⟨[.classic (fun m => m 0) (.compound [gate .x [0]] false)], [(0, 0), (1, 1)],
    [(1, 0), (0, 1)]⟩, cfg0 (basisAt [(0, false), (1, false)]), ?_, rfl, ?_, ?_, ?_, ?_, ?_⟩
  · have := hiddenFlip_valid
    rw [Op.validL_iff] at this ⊢
    intro e he
    simp only [hiddenTarget, List.mem_cons, List.not_mem_nil, or_false] at he
    rcases he with rfl | rfl
    · exact swap_valid (by decide)
    · exact this _ (by simp [hiddenFlip])
  · simp [LayExt, hiddenTarget]
  · simp [LayExt, hiddenTarget]
  · simp [LayExt]
  · simp [LayExt]
  · intro h
    have hx : ∀ c : Cfg, c.mem 0 = true →
        exec (.classic (fun m => m 0) (.compound [gate .x [0]] false)) c =
          some (c.mapSt (app1 (mat1 0 1 1 0) 0)) := by
      intro c hc
      rw [exec]
      simp only [hc, if_true]
      rw [run_compound, run_singleton, gate1_exec (M := mat1 0 1 1 0) rfl rfl]
    have hsw : ∀ c : Cfg, exec (gate .swap [0, 1]) c = some (c.mapSt (pull (swapMap 0 1))) :=
      fun c => exec_pull (swap_denote rfl rfl rfl) c
    simp only [logicalRun, hiddenTarget] at h
    rw [run_singleton, hx _ rfl, run_cons, hsw, Option.bind_some, run_singleton, hx _ rfl] at h
    injection h with h
    have h2 := congrFun (congrArg Cfg.st h) (bitsAt [0])
    simp [Cfg.mapSt, pull, swapMap, flip_app, cfg0, basisAt, bitsAt, ren, update] at h2

/-! ### C29 -/

/-- **C29.** Flattening everything yields exactly the elementary operations in execution order, whatever
the nesting. -/
theorem c29_flatten_all {P : Type} (ops : List (Op P)) : flatten false ops = elemsL ops := flatten_all ops

/-- **C29.** In both modes the sequence of elementary operations, and hence the meaning, is unchanged,
and when only custom gates are flattened none of them is left at the top level. -/
theorem c29_flatten (customOnly : Bool) (ops : List (Op ℝ)) :
    elemsL (flatten customOnly ops) = elemsL ops ∧ run (flatten customOnly ops) = run ops ∧
      ∀ e ∈ flatten true ops, ∀ ps, e ≠ .compound ps true := by
  refine ⟨flatten_elems _ _, ?_, fun e he ps => flatten_custom ops e he ps⟩
  rw [← run_elems, flatten_elems, run_elems]

example : flatten false [gate (P := ℚ) .h [0],
      .compound [gate .x [1], .compound [.compound [] true, gate .z [2]] false, .measure [0] [1]] true] =
    [gate .h [0], gate .x [1], gate .z [2], .measure [0] [1]] := by
  rw [flatten_all]; rfl

end MQT.Opt
