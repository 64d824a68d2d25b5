/-
Circuits with measurements, resets and classically controlled operations, as the optimisation
passes see them, and their meaning.

Sources:
* `include/mqt-core/ir/operations/{StandardOperation,CompoundOperation,NonUnitaryOperation,
  ClassicControlledOperation}.hpp`, `src/ir/operations/CompoundOperation.cpp` 191-198
  (`getUsedQubitsPermuted`), `Operation.hpp`/`Operation.cpp` (`getUsedQubits`);
* `src/circuit_optimizer/CircuitOptimizer.cpp` 40-46 (`addToDag`), 48-87 (`removeIdentities`,
  `removeOperation`).

Meaning: a configuration is an (unnormalised) state, the classical memory and a supply of
measurement outcomes.  A measurement takes the next outcome of the supply, projects the state on
it and writes it to the classical bit.  Two circuits with the same meaning on every
configuration (hence for every supply of outcomes) have the same probability for every outcome
sequence, the same post-measurement states and the same classical memory.

Simplifications: the condition of a classically controlled operation is an arbitrary predicate
on the classical memory (its concrete form is treated in `Verif.IR.ClassicControlled`);
symbolic operations are not modelled; the `controls` a `CompoundOperation` keeps for itself
(besides those of its parts) are not modelled.
-/
import Verif.IR.Circuit

set_option autoImplicit false
set_option linter.unusedSectionVars false

namespace MQT.Opt

open MQT.IR
open Function (update)

/-- The operations of a `QuantumComputation`. -/
inductive Op (P : Type)
  | std (o : StdOp P)
  | compound (ops : List (Op P)) (custom : Bool)
  | measure (qs cs : List ℕ)
  | reset (qs : List ℕ)
  | classic (cond : (ℕ → Bool) → Bool) (op : Op P)

namespace Op

variable {P : Type}

/-- `getType()`. -/
def type : Op P → OpType
  | std o => o.type
  | compound _ _ => .compound
  | measure _ _ => .measure
  | reset _ => .reset
  | classic _ _ => .classicControlled

/-- The qubits in `getTargets()` and `getControls()`.  A classically controlled operation forwards
to the operation it wraps; a compound operation has none of its own. -/
def lineQubits : Op P → Finset ℕ
  | std o => o.used
  | compound _ _ => ∅
  | measure qs _ => qs.toFinset
  | reset qs => qs.toFinset
  | classic _ op => op.lineQubits

mutual
/-- `getUsedQubits()` as computed by the code: the union over the parts for a compound operation
(CompoundOperation.cpp 191-198), the targets and controls for everything else. -/
def usedQ : Op P → Finset ℕ
  | std o => o.used
  | compound ops _ => usedQL ops
  | measure qs _ => qs.toFinset
  | reset qs => qs.toFinset
  | classic _ op => op.lineQubits
def usedQL : List (Op P) → Finset ℕ
  | [] => ∅
  | o :: l => o.usedQ ∪ usedQL l
end

mutual
/-- The qubits the operation really acts on. -/
def acts : Op P → Finset ℕ
  | std o => o.used
  | compound ops _ => actsL ops
  | measure qs _ => qs.toFinset
  | reset qs => qs.toFinset
  | classic _ op => op.acts
def actsL : List (Op P) → Finset ℕ
  | [] => ∅
  | o :: l => o.acts ∪ actsL l
end

mutual
/-- No classically controlled operation wraps a compound operation. -/
def plain : Op P → Bool
  | std _ => true
  | compound ops _ => plainL ops
  | measure _ _ => true
  | reset _ => true
  | classic _ op => op.bare
/-- Neither a compound operation nor a classically controlled one around a compound one. -/
def bare : Op P → Bool
  | std _ => true
  | compound _ _ => false
  | measure _ _ => true
  | reset _ => true
  | classic _ op => op.bare
def plainL : List (Op P) → Bool
  | [] => true
  | o :: l => o.plain && plainL l
end

theorem lineQubits_bare (o : Op P) (h : o.bare = true) : o.lineQubits = o.acts := by
  match o with
  | std o => rfl
  | compound _ _ => exact absurd h (by simp [bare])
  | measure _ _ => rfl
  | reset _ => rfl
  | classic c op =>
    rw [bare] at h
    rw [lineQubits, acts]
    exact lineQubits_bare op h

mutual
/-- On plain operations the code's `getUsedQubits` is right. -/
theorem usedQ_plain (o : Op P) (h : o.plain = true) : o.usedQ = o.acts := by
  match o with
  | std o => rfl
  | compound ops c =>
    rw [plain] at h
    rw [usedQ, acts]
    exact usedQL_plain ops h
  | measure _ _ => rfl
  | reset _ => rfl
  | classic c op =>
    rw [plain] at h
    rw [usedQ, acts]
    exact lineQubits_bare op h
theorem usedQL_plain (l : List (Op P)) (h : plainL l = true) : usedQL l = actsL l := by
  match l with
  | [] => rfl
  | o :: l =>
    rw [plainL, Bool.and_eq_true] at h
    rw [usedQL, actsL, usedQ_plain o h.1, usedQL_plain l h.2]
end

end Op

/-! ### Meaning -/

/-- State, classical memory, outcomes still to come. -/
structure Cfg where
  st : State
  mem : ℕ → Bool
  orc : ℕ → Bool

/-- Act on the quantum state only. -/
def Cfg.mapSt (f : State → State) (c : Cfg) : Cfg := { c with st := f c.st }

/-- Projector on `|b⟩`. -/
def projM (b : Bool) : Mat1 := fun r c => if r = b ∧ c = b then 1 else 0

/-- The Pauli-X matrix, for the correction after a reset. -/
def flipM : Mat1 := fun r c => if r = c then 0 else 1

/-- Measure one qubit into one bit. -/
noncomputable def measure1 (q b : ℕ) (c : Cfg) : Cfg :=
  { st := app1 (projM (c.orc 0)) q c.st
    mem := update c.mem b (c.orc 0)
    orc := fun n => c.orc (n + 1) }

/-- Reset one qubit: measure it (without recording the outcome), flip it if it was one. -/
noncomputable def reset1 (q : ℕ) (c : Cfg) : Cfg :=
  { st := if c.orc 0 then app1 flipM q (app1 (projM true) q c.st) else app1 (projM false) q c.st
    mem := c.mem
    orc := fun n => c.orc (n + 1) }

mutual
/-- Execute an operation; `none`: a standard operation without meaning is reached. -/
noncomputable def exec : Op ℝ → Cfg → Option Cfg
  | .std o, c => o.denote.map fun f => c.mapSt f
  | .compound ops _, c => run ops c
  | .measure qs cs, c => some ((qs.zip cs).foldl (fun c p => measure1 p.1 p.2 c) c)
  | .reset qs, c => some (qs.foldl (fun c q => reset1 q c) c)
  | .classic p op, c => if p c.mem then exec op c else some c
/-- Execute a sequence of operations. -/
noncomputable def run : List (Op ℝ) → Cfg → Option Cfg
  | [], c => some c
  | o :: l, c => (exec o c).bind (run l)
end

theorem run_nil (c : Cfg) : run [] c = some c := by rw [run]

theorem run_cons (o : Op ℝ) (l : List (Op ℝ)) (c : Cfg) :
    run (o :: l) c = (exec o c).bind (run l) := by rw [run]

theorem run_append (l l' : List (Op ℝ)) (c : Cfg) :
    run (l ++ l') c = (run l c).bind (run l') := by
  induction l generalizing c with
  | nil => rw [List.nil_append, run_nil]; rfl
  | cons o l ih =>
    rw [List.cons_append, run_cons, run_cons]
    cases exec o c with
    | none => rfl
    | some d => exact ih d

theorem run_append_congr {a a' b b' : List (Op ℝ)} (ha : run a = run a') (hb : run b = run b') :
    run (a ++ b) = run (a' ++ b') := by
  funext c
  rw [run_append, run_append, ha, hb]

theorem run_singleton (o : Op ℝ) : run [o] = exec o := by
  funext c
  rw [run_cons]
  cases exec o c with
  | none => rfl
  | some d => rw [Option.bind_some, run_nil]

theorem run_compound (l : List (Op ℝ)) (b : Bool) : exec (.compound l b) = run l := by
  funext c; rw [exec]

/-! ### Moving a gate past operations on other qubits -/

/-- The operation `f` on the state can be done before or after `e`. -/
def Passes (f : State → State) (e : Cfg → Option Cfg) : Prop :=
  ∀ c, e (c.mapSt f) = (e c).map (Cfg.mapSt f)

theorem denote_comm_app1 {o : StdOp ℝ} {f : State → State} (hf : o.denote = some f) (M : Mat1)
    {q : ℕ} (hq : q ∉ o.used) (ψ : State) : f (app1 M q ψ) = app1 M q (f ψ) := by
  by_cases b1 : o.type = .barrier
  · rw [StdOp.denote_barrier b1] at hf; injection hf with hf; subst hf; rfl
  by_cases g1 : o.type = .gphase
  · refine (StdOp.denote_gphase_diag hf g1).comm_local (app1_isLocal M q) ?_ ψ
    intro r hr hc
    rw [List.mem_singleton] at hr; subst hr
    exact hq (Finset.mem_union_right _ hc)
  obtain ⟨A, rfl, lA, cA⟩ := StdOp.denote_core hf b1 g1
  have ne : ∀ a ∈ o.targets, a ≠ q := by
    rintro a ha rfl
    exact hq (Finset.mem_union_left _ (List.mem_toFinset.2 ha))
  have key : ∀ φ, A (app1 M q φ) = app1 M q (A φ) := by
    intro φ
    rcases cA with ⟨r, N, e1, rfl, -, -⟩ | ⟨r0, r1, N, e1, rfl, -, -⟩ <;> rw [e1] at ne
    · exact app1_app1_comm _ _ (ne r (by simp)) φ
    · exact (app1_app2_comm _ _ (ne r0 (by simp)).symm (ne r1 (by simp)).symm φ).symm
  have := ctl_comm (cs := o.controls) (cs' := ∅) lA (app1_isLocal M q) key
    (by simp [ctrlQubits]) (by
      intro r hr hc
      rw [List.mem_singleton] at hr; subst hr
      exact hq (Finset.mem_union_right _ hc)) ψ
  rwa [ctl_empty] at this

theorem passes_measure1 {f : State → State} {q : ℕ}
    (h : ∀ M ψ, f (app1 M q ψ) = app1 M q (f ψ)) (b : ℕ) (c : Cfg) :
    measure1 q b (c.mapSt f) = (measure1 q b c).mapSt f := by
  simp only [measure1, Cfg.mapSt, h]

theorem passes_reset1 {f : State → State} {q : ℕ}
    (h : ∀ M ψ, f (app1 M q ψ) = app1 M q (f ψ)) (c : Cfg) :
    reset1 q (c.mapSt f) = (reset1 q c).mapSt f := by
  simp only [reset1, Cfg.mapSt]
  by_cases ho : c.orc 0 = true
  · simp only [ho, if_true, h]
  · simp only [ho, if_false, h, Bool.false_eq_true]

mutual
/-- A standard operation passes every operation that acts on other qubits only. -/
theorem passes_exec {o : StdOp ℝ} {f : State → State} (hf : o.denote = some f) (e : Op ℝ)
    (hd : Disjoint o.used e.acts) : Passes f (exec e) := by
  match e with
  | .std s =>
    intro c
    rw [exec, exec]
    cases hs : s.denote with
    | none => rfl
    | some g =>
      rw [Op.acts] at hd
      simp only [Option.map_some, Cfg.mapSt]
      rw [StdOp.comm_of_disjoint hs hf]
      · intro q hq hu
        exact (Finset.disjoint_left.1 hd) hu (StdOp.mem_used.2 (Or.inl hq))
      · intro q hq hu
        exact (Finset.disjoint_left.1 hd) (StdOp.mem_used.2 (Or.inl hq)) hu
  | .compound ops b =>
    rw [Op.acts] at hd
    rw [run_compound]
    exact passes_run hf ops hd
  | .measure qs cs =>
    rw [Op.acts] at hd
    intro c
    rw [exec, exec, Option.map_some]
    congr 1
    have : ∀ p ∈ qs.zip cs, ∀ M ψ, f (app1 M p.1 ψ) = app1 M p.1 (f ψ) := by
      intro p hp M ψ
      refine denote_comm_app1 hf M ?_ ψ
      exact (Finset.disjoint_right.1 hd) (List.mem_toFinset.2 (List.of_mem_zip hp).1)
    generalize qs.zip cs = l at this
    induction l generalizing c with
    | nil => rfl
    | cons p l ih =>
      rw [List.foldl_cons, List.foldl_cons, passes_measure1 (this p (by simp)), ih _ fun p' hp' =>
        this p' (List.mem_cons_of_mem _ hp')]
  | .reset qs =>
    rw [Op.acts] at hd
    intro c
    rw [exec, exec, Option.map_some]
    congr 1
    have : ∀ q ∈ qs, ∀ M ψ, f (app1 M q ψ) = app1 M q (f ψ) := by
      intro q hq M ψ
      refine denote_comm_app1 hf M ?_ ψ
      exact (Finset.disjoint_right.1 hd) (List.mem_toFinset.2 hq)
    clear hd
    induction qs generalizing c with
    | nil => rfl
    | cons p l ih =>
      rw [List.foldl_cons, List.foldl_cons, passes_reset1 (this p (by simp)), ih _ fun p' hp' =>
        this p' (List.mem_cons_of_mem _ hp')]
  | .classic p op =>
    rw [Op.acts] at hd
    intro c
    rw [exec, exec]
    have : (c.mapSt f).mem = c.mem := rfl
    rw [this]
    split_ifs
    · exact passes_exec hf op hd c
    · rfl
theorem passes_run {o : StdOp ℝ} {f : State → State} (hf : o.denote = some f) (l : List (Op ℝ))
    (hd : Disjoint o.used (Op.actsL l)) : Passes f (run l) := by
  match l with
  | [] => intro c; rw [run, run]; rfl
  | e :: l =>
    rw [Op.actsL, Finset.disjoint_union_right] at hd
    intro c
    rw [run, run, passes_exec hf e hd.1]
    cases exec e c with
    | none => rfl
    | some d =>
      simp only [Option.map_some, Option.bind_some]
      exact passes_run hf l hd.2 d
end

/-- A gate may be moved from behind a block to before it. -/
theorem run_move {o : StdOp ℝ} {f : State → State} (hf : o.denote = some f) (B : List (Op ℝ))
    (hd : ∀ e ∈ B, Disjoint o.used e.acts) : run (B ++ [.std o]) = run (.std o :: B) := by
  have hd' : Disjoint o.used (Op.actsL B) := by
    induction B with
    | nil => simp [Op.actsL]
    | cons e l ih =>
      rw [Op.actsL, Finset.disjoint_union_right]
      exact ⟨hd e (by simp), ih fun e' he' => hd e' (List.mem_cons_of_mem _ he')⟩
  funext c
  rw [run_append, run_cons, run_singleton]
  have e1 : ∀ d, exec (.std o) d = some (d.mapSt f) := by
    intro d; rw [exec, hf]; rfl
  rw [e1, Option.bind_some, passes_run hf B hd' c]
  cases run B c with
  | none => rfl
  | some d => rw [Option.bind_some, e1]; rfl

/-! ### Well-formed input -/

mutual
/-- Every standard operation inside is well-formed and has a meaning. -/
def Op.Valid : Op ℝ → Prop
  | .std o => o.WF ∧ ∃ f, o.denote = some f
  | .compound ops _ => Op.ValidL ops
  | .measure _ _ => True
  | .reset _ => True
  | .classic _ op => op.Valid
def Op.ValidL : List (Op ℝ) → Prop
  | [] => True
  | o :: l => o.Valid ∧ Op.ValidL l
end

theorem Op.validL_iff (l : List (Op ℝ)) : Op.ValidL l ↔ ∀ o ∈ l, o.Valid := by
  induction l with
  | nil => simp [Op.ValidL]
  | cons o l ih => rw [Op.ValidL, ih]; simp

/-! ### Removing identities -/

/-- What becomes of a compound operation whose parts have been thinned out: erased if empty,
replaced by its only part, kept otherwise (CircuitOptimizer.cpp 73-82). -/
def regroup {P : Type} (cu : Bool) : List (Op P) → List (Op P)
  | [] => []
  | [o] => [o]
  | a :: b :: l => [.compound (a :: b :: l) cu]

/-- The innermost loop of `removeOperation` with `opTypes = {I}`, `opSize = 0`
(CircuitOptimizer.cpp 61-78) on one top-level operation. -/
def removeIdentities1 {P : Type} : Op P → List (Op P)
  | .compound ops cu => regroup cu (ops.filter fun o => o.type ≠ .i)
  | o => if o.type = .i then [] else [o]

/-- `removeIdentities` (CircuitOptimizer.cpp 48-87). -/
def removeIdentities {P : Type} (l : List (Op P)) : List (Op P) := l.flatMap removeIdentities1

/-- Drop the top-level identities. -/
def strip {P : Type} (l : List (Op P)) : List (Op P) := l.filter fun o => o.type ≠ .i

theorem strip_append {P : Type} (l l' : List (Op P)) : strip (l ++ l') = strip l ++ strip l' :=
  List.filter_append ..

theorem exec_identity {o : Op ℝ} (hv : o.Valid) (ht : o.type = .i) (c : Cfg) :
    exec o c = some c := by
  match o with
  | .std s =>
    rw [Op.type] at ht
    obtain ⟨-, f, hf⟩ := hv
    rw [exec, hf]
    rcases StdOp.denote_cases hf with ⟨hb, -⟩ | ⟨hg, -⟩ | ⟨hs, q, M, h1, h2, rfl⟩ |
      ⟨h2', -⟩
    · rw [ht] at hb; cases hb
    · rw [ht] at hg; cases hg
    · rw [ht] at h2
      have hM : M = 1 := by
        rw [one_eq_mat1]
        simp only [gate1, Option.some.injEq] at h2
        exact h2.symm
      subst hM
      simp only [Option.map_some, Cfg.mapSt, ctl_app1_one]
    · rw [ht] at h2'; exact absurd h2' (by decide)
  | .compound _ _ => cases ht
  | .measure _ _ => cases ht
  | .reset _ => cases ht
  | .classic _ _ => cases ht

theorem run_strip {l : List (Op ℝ)} (hv : Op.ValidL l) : run (strip l) = run l := by
  induction l with
  | nil => rfl
  | cons o l ih =>
    rw [Op.ValidL] at hv
    funext c
    by_cases h : o.type = .i
    · rw [strip, List.filter_cons_of_neg (by simp [h]), run_cons, exec_identity hv.1 h]
      exact congrFun (ih hv.2) c
    · rw [strip, List.filter_cons_of_pos (by simp [h]), run_cons, run_cons]
      congr 1
      exact ih hv.2

/-- The compound operations' parts are valid. -/
def PartsValid : Op ℝ → Prop
  | .compound ops _ => Op.ValidL ops
  | _ => True

theorem run_removeIdentities1 {o : Op ℝ} (hv : PartsValid o) :
    run (removeIdentities1 o) = run (strip [o]) := by
  match o with
  | .compound ops cu =>
    have e : strip [Op.compound ops cu] = [.compound ops cu] := rfl
    rw [e, run_singleton, run_compound, ← run_strip hv]
    rw [removeIdentities1]
    change run (regroup cu (strip ops)) = _
    generalize strip ops = l
    match l with
    | [] => rfl
    | [o] => rfl
    | a :: b :: l => rw [regroup, run_singleton, run_compound]
  | .std s =>
    rw [removeIdentities1, strip]
    by_cases h : (Op.std s).type = .i
    · simp [h]
    · simp [h]
    · intro ops cu h; cases h
  | .measure _ _ => rfl
  | .reset _ => rfl
  | .classic _ _ => rfl

/-- `removeIdentities` does exactly what dropping the top-level identities does. -/
theorem run_removeIdentities {l : List (Op ℝ)} (hv : ∀ o ∈ l, PartsValid o) :
    run (removeIdentities l) = run (strip l) := by
  induction l with
  | nil => rfl
  | cons o l ih =>
    have e1 : removeIdentities (o :: l) = removeIdentities1 o ++ removeIdentities l := rfl
    have e2 : strip (o :: l) = strip [o] ++ strip l := strip_append [o] l
    rw [e1, e2]
    exact run_append_congr (run_removeIdentities1 (hv o (by simp)))
      (ih fun o' ho' => hv o' (List.mem_cons_of_mem _ ho'))

end MQT.Opt
