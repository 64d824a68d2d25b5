import Verif.Opt.Defer
import Verif.Props.OptFusion

/-! C82: deferring measurements.

The two circuits take the same random outcomes in different orders, so they are compared up to a
fixed permutation of the outcomes (`Same`): for every state, memory and supply of outcomes the final
states, memories and remaining outcomes are equal. -/

set_option autoImplicit false
set_option linter.unusedSectionVars false
set_option linter.unusedSimpArgs false

namespace MQT.Opt.Defer

open MQT.IR
open Function (update)

/-- **C82.** When every measurement is of one qubit into one bit, no later operation acts on that qubit
or writes that bit, conditions on it read "the bit has the expected value", and there are no resets
behind measurements, the pass succeeds and preserves the circuit, in whatever order the measurements are
appended.
Missing from C82: operations on a measured qubit (`c82_fails_for_order`, `c82_fails_for_later_gates`),
other comparisons (`c82_fails_for_comparisons`), measurements that are not moved (`c82_skips`). -/
theorem c82_preserves_partial (ops : List (DOp ℝ)) (hg : Good ops) (hv : ∀ e ∈ ops, e.toOp.Valid) :
    ∃ ms ops', deferMeasurements ops = .ok (ms, ops') ∧ ms.Sublist (pairs ops) ∧
      ∀ order, order.Perm ms → Same (ops.map DOp.toOp) ((finish order ops').map DOp.toOp) := by
  obtain ⟨ms, ops', h1, h2, h4, h3⟩ := outer_good ops.length ops (Nat.le_refl _) hg hv [] (by simp)
  refine ⟨ms, ops', h1, h2, fun order ho => ?_⟩
  have ha : Apart ms := List.Pairwise.sublist h2 (good_apart ops hg)
  have hp : ms.reverse.Perm order := (List.reverse_perm ms).trans ho.symm
  have hga : Apart ms.reverse := ha.symm_of (List.reverse_perm ms).symm
  refine h3.trans ?_
  rw [finish, List.map_append, List.map_map]
  exact (same_perm hp hga).prefix ops' h4

/-- **C82.** A circuit with one measurement, which is not the last operation: the measurement is
taken out, every operation conditioned on its bit behind it is replaced by a controlled one, nothing else
changes. -/
theorem c82_one_partial (pre rest : List (DOp ℝ)) (q b : ℕ) (hp : ∀ e ∈ pre, isMeasure e = false)
    (hr : ∀ e ∈ rest, isMeasure e = false) (hne : rest ≠ []) (ht : ∀ e ∈ rest, Terminal q b e) :
    ∃ rest', deferMeasurements (pre ++ meas (q, b) :: rest) = .ok ([(q, b)], pre ++ rest') ∧
      rest'.length = rest.length ∧ (∀ e ∈ rest', isMeasure e = false) ∧
      (∀ cc op, .classic cc op ∈ rest' → .classic cc op ∈ rest ∧ condBit cc ≠ some b) ∧
      ∀ e ∈ rest, isClassic e = false → e ∈ rest' := by
  have hm : ∀ e ∈ rest.map (conv q b), isMeasure e = false := by
    intro e he
    obtain ⟨e', h1, rfl⟩ := List.mem_map.1 he
    cases hc : conv q b e' with
    | measure qs cs => exact absurd (hr e' h1) (by rw [conv_measure hc]; simp [isMeasure])
    | _ => rfl
  refine ⟨rest.map (conv q b), ?_, List.length_map _, hm, ?_, ?_⟩
  · rw [defer_first hp hne, inner_terminal [q] [b] q b (by simp) rest [] ht, List.nil_append]
    cases hrest : rest.map (conv q b) with
    | nil => exact absurd (List.map_eq_nil_iff.1 hrest) hne
    | cons e l =>
      simp only [MQT.Res.bind]
      rw [outer_keep _ _ _ fun e' he' => hm e' (by rw [hrest]; exact List.mem_cons_of_mem _ he')]
  · intro cc op h
    obtain ⟨e', h1, h2⟩ := List.mem_map.1 h
    have h3 := ht e' h1
    match e', h2, h3 with
    | .classic cc' op', h2, h3 =>
      obtain ⟨o, b', rfl, -⟩ := h3
      rw [conv] at h2
      split_ifs at h2 with hb
      injection h2 with h4 h5
      subst h4 h5
      exact ⟨h1, hb⟩
  · intro e he hc
    refine List.mem_map.2 ⟨e, he, ?_⟩
    cases e with
    | classic _ _ => cases hc
    | _ => rfl

/-- **C82.** A reset behind a measurement is rejected. -/
theorem c82_rejects_resets (pre mid rest : List (DOp ℝ)) (q b : ℕ) (qs : List ℕ)
    (hp : ∀ e ∈ pre, isMeasure e = false) (ht : ∀ e ∈ mid, Terminal q b e) :
    deferMeasurements (pre ++ meas (q, b) :: (mid ++ .reset qs :: rest)) = .throw := by
  rw [defer_first hp (by simp), inner_throw [q] [b] q b (by simp) mid _ [] ht fun pre => by rw [inner]]
  rfl

/-- **C82.** A gate on the measured qubit conditioned on the outcome (a conditional reset) is rejected. -/
theorem c82_rejects_conditional_resets (pre mid rest : List (DOp ℝ)) (q b : ℕ) (cc : CC) (o : StdOp ℝ)
    (hp : ∀ e ∈ pre, isMeasure e = false) (ht : ∀ e ∈ mid, Terminal q b e) (hc : condBit cc = some b)
    (ho : q ∈ o.targets) :
    deferMeasurements (pre ++ meas (q, b) :: (mid ++ .classic cc (.std o) :: rest)) = .throw := by
  rw [defer_first hp (by simp), inner_throw [q] [b] q b (by simp) mid _ [] ht fun pre => by
    rw [inner, hc]
    simp only
    rw [if_neg (not_not.2 rfl), if_pos ho]]
  rfl

/-- **C82.** A condition on a register of several bits is rejected. -/
theorem c82_rejects_registers (pre mid rest : List (DOp ℝ)) (q b : ℕ) (cc : CC) (op : Op ℝ)
    (hp : ∀ e ∈ pre, isMeasure e = false) (ht : ∀ e ∈ mid, Terminal q b e) (hc : condBit cc = none) :
    deferMeasurements (pre ++ meas (q, b) :: (mid ++ .classic cc op :: rest)) = .throw := by
  rw [defer_first hp (by simp), inner_throw [q] [b] q b (by simp) mid _ [] ht fun pre => by
    cases op <;> (rw [inner, hc]; try (intros; contradiction))]
  rfl

/-- `if (c[b] == v) gate`. -/
def ifBit {P : Type} (b v : ℕ) (op : Op P) : DOp P := .classic { bit := some b, expected := v } op

/-- Teleportation-like example: two measurements with conditional corrections. -/
example : deferMeasurements [DOp.other (gate (P := ℚ) .h [0]), meas (0, 0), .other (gate .h [1]), meas (1, 1),
      ifBit 0 1 (gate .z [2]), ifBit 1 0 (gate .x [2])] =
    .ok ([(0, 0), (1, 1)], [.other (gate .h [0]), .other (gate .h [1]),
      .other (.std { type := .z, controls := {(0, true)}, targets := [2] }),
      .other (.std { type := .x, controls := {(1, false)}, targets := [2] })]) := by
  simp [deferMeasurements, outer, inner, advance, meas, ifBit, condBit, controlled, gate, put, MQT.Res.bind, cxOp,
      Op.acts, StdOp.used, ctrlQubits]

/-- Two adjacent measurements: the second one is skipped and its condition stays. -/
theorem c82_skips : deferMeasurements [meas (P := ℝ) (0, 0), meas (1, 1), ifBit 1 1 (gate .x [2])] =
    .ok ([(0, 0)], [meas (1, 1), ifBit 1 1 (gate .x [2])]) := by
  simp [deferMeasurements, outer, inner, advance, meas, ifBit, condBit, controlled, gate, put, MQT.Res.bind, cxOp,
      Op.acts, StdOp.used, ctrlQubits]

/-- Circuits that differ for a constant supply of outcomes are not the same. -/
theorem not_same {l l' : List (Op ℝ)} {c d d' : Cfg} {v : Bool} {x : Bits} (hc : c.orc = fun _ => v)
    (h : run l c = some d) (h' : run l' c = some d') (hx : d.st x ≠ d'.st x) : ¬ Same l l' := by
  rintro ⟨π, hπ⟩
  have h1 : ({ c with orc := c.orc ∘ π } : Cfg) = c := by
    cases c
    simp only at hc
    subst hc
    rfl
  have h2 := hπ c
  rw [h1, h, h', Option.some.injEq] at h2
  exact hx (by rw [h2])

/-- A gate on the measured qubit behind the measurement: the measurement is moved behind it. -/
theorem c82_fails_for_later_gates : ∃ (ops ops' : List (DOp ℝ)) (ms : List (ℕ × ℕ)),
    deferMeasurements ops = .ok (ms, ops') ∧ (∀ e ∈ ops, e.toOp.Valid) ∧
    ¬ Same (ops.map DOp.toOp) ((finish ms ops').map DOp.toOp) := by
  refine ⟨[meas (0, 0), .other (gate .h [0])], [.other (gate .h [0])], [(0, 0)], ?_, ?_, ?_⟩
  · simp [deferMeasurements, outer, inner, advance, meas, ifBit, condBit, controlled, gate, put, MQT.Res.bind, cxOp,
      Op.acts, StdOp.used, ctrlQubits]
  · intro e he
    simp only [List.mem_cons, List.not_mem_nil, or_false] at he
    rcases he with rfl | rfl
    · rw [meas, DOp.toOp, Op.Valid]; trivial
    · exact gate_valid rfl (gate1_h _)
  · refine not_same (c := cfg0 (basisAt [(0, false)])) (v := false) (x := bitsAt [0]) rfl
      (d := (measure1 0 0 (cfg0 (basisAt [(0, false)]))).mapSt (app1 hadM 0))
      (d' := measure1 0 0 ((cfg0 (basisAt [(0, false)])).mapSt (app1 hadM 0))) ?_ ?_ ?_
    · rw [List.map_cons, run_cons, exec_meas, Option.bind_some, List.map_singleton, run_singleton, DOp.toOp,
        gate1_exec (M := hadM) rfl (gate1_h _)]
    · show run [gate .h [0], (meas (0, 0)).toOp] _ = _
      rw [run_cons, gate1_exec (M := hadM) rfl (gate1_h _), Option.bind_some, run_singleton, exec_meas]
    · simp [measure1, Cfg.mapSt, cfg0, basisAt, bitsAt, app1, projM, hadM, mat1, r2]

/-- Another comparison: `if (c[0] < 1) x q[1]` becomes a CNOT. -/
theorem c82_fails_for_comparisons : ∃ (ops ops' : List (DOp ℝ)) (ms : List (ℕ × ℕ)),
    deferMeasurements ops = .ok (ms, ops') ∧ (∀ e ∈ ops, e.toOp.Valid) ∧
    ¬ Same (ops.map DOp.toOp) ((finish ms ops').map DOp.toOp) := by
  refine ⟨[meas (0, 0), .classic { reg := some (0, 1), expected := 1, kind := .lt } (gate .x [1])],
    [.other (cxOp 0 1)], [(0, 0)], ?_, ?_, ?_⟩
  · simp [deferMeasurements, outer, inner, advance, meas, ifBit, condBit, controlled, gate, put, MQT.Res.bind, cxOp,
      Op.acts, StdOp.used, ctrlQubits]
  · intro e he
    simp only [List.mem_cons, List.not_mem_nil, or_false] at he
    rcases he with rfl | rfl
    · rw [meas, DOp.toOp, Op.Valid]; trivial
    · rw [DOp.toOp, Op.Valid]; exact gate_valid rfl rfl
  · refine not_same (c := cfg0 (basisAt [(0, false), (1, false)])) (v := false) (x := bitsAt [1]) rfl
      (d := (measure1 0 0 (cfg0 (basisAt [(0, false), (1, false)]))).mapSt (app1 (mat1 0 1 1 0) 1))
      (d' := measure1 0 0 ((cfg0 (basisAt [(0, false), (1, false)])).mapSt (pull (cxMap 0 1)))) ?_ ?_ ?_
    · rw [List.map_cons, run_cons, exec_meas, Option.bind_some, List.map_singleton, run_singleton, DOp.toOp, exec]
      rw [if_pos, gate1_exec (M := mat1 0 1 1 0) rfl rfl]
      simp [CC.fires, CC.regValue, measure1, cfg0, Cmp.holds]
    · show run [cxOp 0 1, (meas (0, 0)).toOp] _ = _
      rw [run_cons, cxOp_exec, Option.bind_some, run_singleton, exec_meas]
    · simp [measure1, Cfg.mapSt, cfg0, basisAt, bitsAt, app1, projM, mat1, pull, cxMap]

/-- An operation on the measured qubit, be it a barrier, shifts the place where the controlled operation is
put: `measure q[0]; barrier q[0]; h q[1]; if (c[0]) x q[1]` becomes `barrier; cx; h; measure`. -/
theorem c82_fails_for_order : ∃ (ops ops' : List (DOp ℝ)) (ms : List (ℕ × ℕ)),
    deferMeasurements ops = .ok (ms, ops') ∧ (∀ e ∈ ops, e.toOp.Valid) ∧
    ops' = [.other (gate .barrier [0]), .other (cxOp 0 1), .other (gate .h [1])] ∧
    ¬ Same (ops.map DOp.toOp) ((finish ms ops').map DOp.toOp) := by
  refine ⟨[meas (0, 0), .other (gate .barrier [0]), .other (gate .h [1]), ifBit 0 1 (gate .x [1])],
    [.other (gate .barrier [0]), .other (cxOp 0 1), .other (gate .h [1])], [(0, 0)], ?_, ?_, rfl, ?_⟩
  · simp [deferMeasurements, outer, inner, advance, meas, ifBit, condBit, controlled, gate, put, MQT.Res.bind, cxOp,
      Op.acts, StdOp.used, ctrlQubits]
  · intro e he
    simp only [List.mem_cons, List.not_mem_nil, or_false] at he
    rcases he with rfl | rfl | rfl | rfl
    · rw [meas, DOp.toOp, Op.Valid]; trivial
    · rw [DOp.toOp, gate, Op.Valid]; exact ⟨⟨by simp, by simp [ctrlQubits]⟩, _, StdOp.denote_barrier rfl⟩
    · exact gate_valid rfl (gate1_h _)
    · rw [ifBit, DOp.toOp, Op.Valid]; exact gate_valid rfl rfl
  · have hb : ∀ c, exec (gate .barrier [0]) c = some c := by
      intro c; rw [gate, exec, StdOp.denote_barrier rfl]; rfl
    set c : Cfg := { st := basisAt [(0, true), (1, false)], mem := fun _ => false, orc := fun _ => true } with hc
    refine not_same (c := c) (v := true) (x := bitsAt [0, 1]) rfl
      (d := ((measure1 0 0 c).mapSt (app1 hadM 1)).mapSt (app1 (mat1 0 1 1 0) 1))
      (d' := measure1 0 0 ((c.mapSt (pull (cxMap 0 1))).mapSt (app1 hadM 1))) ?_ ?_ ?_
    · show run [(meas (0, 0)).toOp, gate .barrier [0], gate .h [1], (ifBit 0 1 (gate .x [1])).toOp] _ = _
      rw [run_cons, exec_meas, Option.bind_some, run_cons, hb, Option.bind_some, run_cons,
        gate1_exec (M := hadM) rfl (gate1_h _), Option.bind_some, run_singleton, ifBit, DOp.toOp, exec, if_pos,
        gate1_exec (M := mat1 0 1 1 0) rfl rfl]
      simp [CC.fires, measure1, hc, Cmp.holds, Cfg.mapSt]
    · show run [gate .barrier [0], cxOp 0 1, gate .h [1], (meas (0, 0)).toOp] _ = _
      rw [run_cons, hb, Option.bind_some, run_cons, cxOp_exec, Option.bind_some, run_cons,
        gate1_exec (M := hadM) rfl (gate1_h _), Option.bind_some, run_singleton, exec_meas]
    · simp [measure1, Cfg.mapSt, hc, basisAt, bitsAt, app1, projM, mat1, pull, cxMap, hadM]
      intro h
      have h0 : r2 ≠ 0 := by simp [r2]
      have h1 : r2 = -r2 := by exact_mod_cast h
      exact h0 (by linarith)

end MQT.Opt.Defer
