import Verif.Opt.FinalMeasSem
import Verif.Props.OptDefer

/-! C83: removing final measurements. -/

set_option autoImplicit false
set_option linter.unusedSectionVars false
set_option linter.unusedSimpArgs false

namespace MQT.Opt.Final

open MQT.IR MQT.Opt.Defer
open Function (update)

/-- Operations that are neither measurements nor barriers nor compound. -/
theorem flat_other {P : Type} {e : Op P} (h1 : e.type ≠ .measure) (h2 : e.type ≠ .barrier) (h3 : e.type ≠ .compound) :
    Flat e :=
  ⟨fun _ => h3, fun h => absurd h (not_or.2 ⟨h1, h2⟩), fun h => absurd h (not_or.2 ⟨h1, h2⟩)⟩

theorem flat_measure {P : Type} {qs cs : List ℕ} (h : qs.Nodup) : Flat (Op.measure (P := P) qs cs) :=
  ⟨fun _ h => OpType.noConfusion h, fun _ => rfl, fun _ => h⟩

/-- **C83.** For circuits without compound operations that measure or reset, the recursion ends (a bound on
its depth is `enough`) without exception or undefined behaviour, and removes exactly the final measurements
and barriers: those behind which nothing but final measurements and barriers follows on their qubits.
Missing from C83: compound operations with measurements (`c83_fails_for_compounds`, `c83_loops`). -/
theorem c83_removes_exactly_partial {P : Type} (n : ℕ) (ops : List (Op P)) (hn : 0 < n)
    (hr : ∀ e ∈ ops, ∀ q ∈ e.usedQ, q < n) (hfl : ∀ e ∈ ops, Flat e) (fuel : ℕ) (hf : enough n ops ≤ fuel) :
    removeFinal fuel n ops = .ok (removeIdentities (keep ops)) :=
  removeFinal_eq hn hr hfl fuel hf

/-- **C83.** No gate, reset or classically controlled operation is lost. -/
theorem c83_keeps_gates_partial {P : Type} (n : ℕ) (ops : List (Op P)) (hn : 0 < n)
    (hr : ∀ e ∈ ops, ∀ q ∈ e.usedQ, q < n) (hfl : ∀ e ∈ ops, Flat e) (fuel : ℕ) (hf : enough n ops ≤ fuel) :
    ∃ kept, removeFinal fuel n ops = .ok (removeIdentities kept) ∧ kept.Sublist ops ∧
      ∀ p : Op P → Bool, (∀ e, isMB e → p e = false) → kept.filter p = ops.filter p := by
  refine ⟨keep ops, removeFinal_eq hn hr hfl fuel hf, ?_, fun p hp => ?_⟩
  · clear hr hfl hf
    induction ops with
    | nil => exact List.Sublist.refl _
    | cons o l ih =>
      by_cases h : Fin (o :: l) 0
      · rw [keep_cons_fin h]; exact ih.cons o
      · rw [keep_cons_not h]; exact ih.cons_cons o
  · clear hr hfl hf
    induction ops with
    | nil => rfl
    | cons o l ih =>
      by_cases h : Fin (o :: l) 0
      · rw [keep_cons_fin h, ih]
        obtain ⟨_, e, he, hm, -, -⟩ := h
        rw [List.getElem?_cons_zero] at he
        injection he with he
        subst he
        rw [List.filter_cons_of_neg (by rw [hp _ hm]; decide)]
      · rw [keep_cons_not h, List.filter_cons, List.filter_cons, ih]

/-- **C83.** The circuit that is left, followed by the removed measurements, has the meaning of the given
one up to the order in which the outcomes are drawn, provided nothing that is left reads or writes the bits
of an earlier removed measurement.
Missing from C83: compound operations with measurements, classically controlled compound operations, and
bits that are still used (`c83_fails_for_used_bits`). -/
theorem c83_preserves_partial (n : ℕ) (ops : List (Op ℝ)) (hn : 0 < n)
    (hr : ∀ e ∈ ops, ∀ q ∈ e.usedQ, q < n) (hfl : ∀ e ∈ ops, Flat e) (hv : ∀ e ∈ ops, e.Valid)
    (hs : ∀ e ∈ ops, Steady e) (hu : ∀ e ∈ ops, e.usedQ = e.acts) (hb : BitsFree ops) (fuel : ℕ)
    (hf : enough n ops ≤ fuel) :
    ∃ ops', removeFinal fuel n ops = .ok ops' ∧ Same ops (ops' ++ drop ops) := by
  refine ⟨_, removeFinal_eq hn hr hfl fuel hf, (same_keep_drop ops hv hs hu hb).trans (same_of_run ?_)⟩
  have hk : ∀ e ∈ keep ops, e.Valid := fun e he => by
    obtain ⟨k, h, -⟩ := mem_keep he
    exact hv e (List.mem_of_getElem? h)
  refine run_append_congr ?_ rfl
  rw [run_removeIdentities fun e he => ?_, run_strip ((Op.validL_iff _).2 hk)]
  have := hk e he
  cases e with
  | compound l b => rw [Op.Valid] at this; exact this
  | _ => trivial

/-- A measurement with a gate behind it stays; the barrier and the measurements behind the gate go, except
the one on the qubit with a gate on it. -/
example : removeFinal 100 3 [gate (P := ℚ) .h [0], .measure [0] [0], gate .h [0], cxOp 0 1, gate .barrier [0, 1, 2],
      .measure [0, 1] [0, 1], .measure [2] [2], gate .x [2]] =
    .ok [gate .h [0], .measure [0] [0], gate .h [0], cxOp 0 1, gate .barrier [0, 1, 2], .measure [2] [2],
      gate .x [2]] := rfl

example : removeFinal 100 3 [gate (P := ℚ) .h [0], cxOp 0 1, gate .barrier [0, 1, 2],
      .measure [0, 1] [0, 1], .measure [2] [2]] = .ok [gate .h [0], cxOp 0 1] := rfl

/-- The hypotheses are met by a Bell measurement. -/
example : ∃ ops', removeFinal 1000 2 [gate .h [0], cxOp 0 1, .measure [0, 1] [0, 1]] = .ok ops' ∧
    Same [gate .h [0], cxOp 0 1, .measure [0, 1] [0, 1]]
      (ops' ++ drop [gate .h [0], cxOp 0 1, .measure [0, 1] [0, 1]]) := by
  refine c83_preserves_partial 2 _ (by decide) (by decide) ?_ ?_ ?_ ?_ ?_ 1000 (by decide)
  · intro e he
    simp only [List.mem_cons, List.not_mem_nil, or_false] at he
    rcases he with rfl | rfl | rfl
    · exact flat_other (by decide) (by decide) (by decide)
    · exact flat_other (by decide) (by decide) (by decide)
    · exact flat_measure (by decide)
  · intro e he
    simp only [List.mem_cons, List.not_mem_nil, or_false] at he
    rcases he with rfl | rfl | rfl
    · exact gate_valid rfl (gate1_h _)
    · exact cx_valid (by decide)
    · rw [Op.Valid]; trivial
  · intro e he
    simp only [List.mem_cons, List.not_mem_nil, or_false] at he
    rcases he with rfl | rfl | rfl
    · rfl
    · rfl
    · trivial
  · intro e he
    simp only [List.mem_cons, List.not_mem_nil, or_false] at he
    rcases he with rfl | rfl | rfl <;> rfl
  · intro k j qs cs e hkj _ hk hj _
    have : k = 2 := by
      match k, hk with
      | 0, hk => injection hk with hk; cases hk
      | 1, hk => injection hk with hk; cases hk
      | 2, _ => rfl
      | k + 3, hk => cases hk
    subst this
    obtain ⟨j, rfl⟩ : ∃ i, j = i + 3 := ⟨j - 3, by omega⟩
    cases hj

/-- A final measurement is removed although a later operation on another qubit is conditioned on it:
`measure q[0]; if (c[0]) x q[1]` becomes `if (c[0]) x q[1]`. -/
theorem c83_fails_for_used_bits : ∃ (ops ops' : List (Op ℝ)) (m : Op ℝ), (∀ fuel, 100 ≤ fuel →
      removeFinal fuel 2 ops = .ok ops') ∧ (∀ e ∈ ops, e.Valid) ∧ ops = m :: ops' ∧ m = .measure [0] [0] ∧
      ¬ Same ops (ops' ++ [m]) := by
  have hk : keep [Op.measure [0] [0], .classic (fun m => m 0) (gate (P := ℝ) .x [1])] =
      [.classic (fun m => m 0) (gate (P := ℝ) .x [1])] := by
    rw [keep_cons_fin, keep_cons_not]
    · rfl
    · rintro ⟨_, e, he, hm, -, -⟩
      injection he with he
      subst he
      rcases hm with h | h <;> cases h
    · refine .mk 0 _ rfl (Or.inl rfl) (by simp [tgtsOf]) fun j e hj he hd => ?_
      match j, hj, he with
      | 1, _, he =>
        injection he with he
        subst he
        exact absurd (by decide) hd
      | j + 2, _, he => cases he
  refine ⟨[.measure [0] [0], .classic (fun m => m 0) (gate .x [1])], [.classic (fun m => m 0) (gate .x [1])],
    .measure [0] [0], fun fuel hf => ?_, ?_, rfl, rfl, ?_⟩
  · rw [c83_removes_exactly_partial 2 _ (by decide) (by decide) ?_ fuel (by
      have : enough 2 [Op.measure [0] [0], .classic (fun m => m 0) (gate (P := ℝ) .x [1])] = 35 := rfl
      omega), hk]
    · rfl
    · intro e he
      simp only [List.mem_cons, List.not_mem_nil, or_false] at he
      rcases he with rfl | rfl
      · exact flat_measure (by decide)
      · exact flat_other OpType.noConfusion OpType.noConfusion OpType.noConfusion
  · intro e he
    simp only [List.mem_cons, List.not_mem_nil, or_false] at he
    rcases he with rfl | rfl
    · rw [Op.Valid]; trivial
    · rw [Op.Valid]; exact gate_valid rfl rfl
  · set c : Cfg := { st := basisAt [(0, true), (1, false)], mem := fun _ => false, orc := fun _ => true } with hc
    refine not_same (c := c) (v := true) (x := bitsAt [0, 1]) rfl
      (d := (measure1 0 0 c).mapSt (app1 (mat1 0 1 1 0) 1)) (d' := measure1 0 0 c) ?_ ?_ ?_
    · have h1 : exec (.measure [0] [0]) c = some (measure1 0 0 c) := exec_one (0, 0) c
      rw [run_cons, h1, Option.bind_some, run_singleton, exec, if_pos (by simp [measure1, hc]),
        gate1_exec (M := mat1 0 1 1 0) rfl rfl]
    · have h1 : exec (.measure [0] [0]) c = some (measure1 0 0 c) := exec_one (0, 0) c
      rw [List.singleton_append, run_cons, exec, if_neg (by simp [hc]), Option.bind_some, run_singleton, h1]
    · simp [measure1, Cfg.mapSt, hc, basisAt, bitsAt, app1, projM, mat1]

/-- Inside a compound operation with a measurement the type of the parts is not looked at: the Hadamard gate
of `{h q[0]; measure q[0]}` is removed together with the measurement. -/
theorem c83_fails_for_compounds : ∃ ops : List (Op ℝ), (∀ e ∈ ops, e.Valid) ∧
    (∀ fuel, removeFinal (fuel + 2) 1 ops = .ok []) ∧
    ops = [.compound [gate .h [0], .measure [0] [0]] false] ∧ ¬ Same ops [.measure [0] [0]] := by
  refine ⟨[.compound [gate .h [0], .measure [0] [0]] false], ?_, fun fuel => rfl, rfl, ?_⟩
  · intro e he
    simp only [List.mem_cons, List.not_mem_nil, or_false] at he
    subst he
    rw [Op.Valid, Op.validL_iff]
    intro e he
    simp only [List.mem_cons, List.not_mem_nil, or_false] at he
    rcases he with rfl | rfl
    · exact gate_valid rfl (gate1_h _)
    · rw [Op.Valid]; trivial
  · set c : Cfg := { st := basisAt [(0, false)], mem := fun _ => false, orc := fun _ => true } with hc
    have h1 : ∀ c, exec (.measure [0] [0]) c = some (measure1 0 0 c) := exec_one (0, 0)
    refine not_same (c := c) (v := true) (x := bitsAt [0]) rfl
      (d := measure1 0 0 (c.mapSt (app1 hadM 0))) (d' := measure1 0 0 c) ?_ ?_ ?_
    · rw [run_singleton, run_compound, run_cons, gate1_exec (M := hadM) rfl (gate1_h _), Option.bind_some,
        run_singleton, h1]
    · rw [run_singleton, h1]
    · simp [measure1, Cfg.mapSt, hc, basisAt, bitsAt, app1, projM, mat1, hadM, r2]

/-- A compound operation whose last part has no targets (a global phase) keeps the loop going for ever. -/
theorem c83_loops (θ : ℝ) (fuel : ℕ) : removeFinal fuel 1
    [.compound [.measure [0] [0], .std { type := .gphase, params := [θ], targets := [] }] false] = .fuel := by
  set ops : List (Op ℝ) :=
    [.compound [.measure [0] [0], .std { type := .gphase, params := [θ], targets := [] }] false] with ho
  have hd : constructDAG 1 ops = some fun q => if q = 0 then [0] else [] := by
    rw [constructDAG, ho, dagFrom, addToDag, if_pos (by
      simp [Op.usedQ, Op.usedQL, StdOp.used, ctrlQubits]), Option.bind_some, dagFrom]
    congr 1
    funext q
    by_cases hq : q = 0
    · subst hq; rfl
    · have : q ∉ (Op.compound [.measure [0] [0], .std { type := .gphase, params := [θ], targets := [] }] false).usedQ := by
        simp [Op.usedQ, Op.usedQL, StdOp.used, ctrlQubits, hq]
      rw [if_neg this, if_neg hq]
  have hl : ∀ f, removeRec 1 ops f 0 none { its := fun q => if q = 0 then [0] else [] } = .fuel := by
    intro f
    induction f with
    | zero => rfl
    | succ f ih => exact ih
  rw [removeFinal, hd]
  simp only [Nat.one_ne_zero, if_false, hl, Res.bind]

end MQT.Opt.Final
