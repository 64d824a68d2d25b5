/-
`CircuitOptimizer::deferMeasurements` (`src/circuit_optimizer/CircuitOptimizer.cpp` 756-944).

The pass needs the conditions of classically controlled operations in their concrete form
(`Verif.IR.ClassicControlled`), so circuits are lists of `DOp` here; `DOp.toOp` gives their meaning.

The iterators of the code are modelled by splitting the operations after the erased measurement into
those before the insertion point, those between the insertion point and the current operation, and
those from the current operation on.  `std::unordered_map` is a list of pairs; since its order is not
specified, the properties are stated for every order of the measurements added at the end.

Not modelled: clearing of the output permutation and the final `initializeIOMapping` (they do not
change the operations); the canonicalisation of U gates in the constructor of `StandardOperation`
(C21); symbolic operations.
-/
import Verif.Opt.Rewrite
import Verif.IR.ClassicControlled
import Verif.Common.Res

set_option autoImplicit false
set_option linter.unusedSectionVars false

namespace MQT.Opt

open MQT.IR
open Function (update)

/-- The operations of a circuit.  `other`: standard and compound operations (`isUnitary()` is true for
them, Operation.hpp 131, also when a compound operation has parts that are not unitary). -/
inductive DOp (P : Type)
  | other (op : Op P)
  | measure (qs cs : List ℕ)
  | reset (qs : List ℕ)
  | classic (cc : CC) (op : Op P)

namespace Defer

variable {P : Type}

/-- The operation as a member of `Op`. -/
def _root_.MQT.Opt.DOp.toOp : DOp P → Op P
  | .other op => op
  | .measure qs cs => .measure qs cs
  | .reset qs => .reset qs
  | .classic cc op => .classic (fun m => (cc.fires m).getD false) op

/-- Whether it is a classically controlled operation. -/
def isClassic : DOp P → Bool
  | .classic _ _ => true
  | _ => false

/-- Lines 838-855: the classical bit of a condition; `none`: exception. -/
def condBit (cc : CC) : Option ℕ :=
  match cc.reg with
  | some (s, n) => if n ≠ 1 then none else some (cc.bit.getD s)
  | none => some (cc.bit.getD 0)

/-- Lines 894-922: the operation that replaces a classically controlled one. -/
def controlled (q : ℕ) (cc : CC) (o : StdOp P) : StdOp P :=
  { o with controls := insert (q, decide (cc.expected = 1)) o.controls }

/-- The operations up to the insertion point and between it and the current operation after
`++currentInsertionPoint; ++opIt` (the insertion point is never past the current operation). -/
def advance (pre mid : List (DOp P)) (e : DOp P) : List (DOp P) × List (DOp P) :=
  (pre ++ (mid ++ [e]).take 1, (mid ++ [e]).drop 1)

theorem lex_of_le {a b c d : ℕ} (h : a ≤ c) (h' : b < d) : Prod.Lex (· < ·) (· < ·) (a, b) (c, d) := by
  rcases Nat.lt_or_eq_of_le h with h | h
  · exact Prod.Lex.left _ _ h
  · subst h; exact Prod.Lex.right _ h'

theorem count_advance (pre mid rest : List (DOp P)) (e : DOp P) :
    ((advance pre mid e).2 ++ rest).countP isClassic ≤ (mid ++ e :: rest).countP isClassic := by
  have h : ((mid ++ [e]).drop 1).countP isClassic ≤ (mid ++ [e]).countP isClassic :=
    (List.drop_sublist _ _).countP_le
  have e1 : mid ++ e :: rest = (mid ++ [e]) ++ rest := by simp
  rw [e1, List.countP_append, List.countP_append]
  exact Nat.add_le_add_right h _

theorem count_stay (mid rest : List (DOp P)) (e : DOp P) :
    ((mid ++ [e]) ++ rest).countP isClassic ≤ (mid ++ e :: rest).countP isClassic := by
  simp

theorem count_hit (mid rest : List (DOp P)) (cc : CC) (op : Op P) :
    ([] ++ (mid ++ rest)).countP isClassic < (mid ++ .classic cc op :: rest).countP isClassic := by
  simp only [List.nil_append, List.countP_append, List.countP_cons]
  have : isClassic (DOp.classic cc op) = true := rfl
  rw [this]
  simp

/-- The inner loop (797-935) for the measurement of `q` into `b` (with targets `qs` and classical bits
`cs`): `pre` up to the insertion point, `mid` up to the current operation. -/
def inner (qs cs : List ℕ) (q b : ℕ) : List (DOp P) → List (DOp P) → List (DOp P) → Res (List (DOp P))
  | pre, mid, [] => .ok (pre ++ mid)
  | pre, mid, .other op :: rest =>
    if q ∈ op.acts then inner qs cs q b pre (mid ++ [.other op]) rest
    else inner qs cs q b (advance pre mid (.other op)).1 (advance pre mid (.other op)).2 rest
  | _, _, .reset _ :: _ => .throw
  | pre, mid, .measure qs' cs' :: rest =>
    if qs = qs' ∧ cs = cs' then .ok (pre ++ mid ++ .measure qs' cs' :: rest)
    else inner qs cs q b (advance pre mid (.measure qs' cs')).1 (advance pre mid (.measure qs' cs')).2 rest
  | pre, mid, .classic cc op :: rest =>
    match condBit cc with
    | none => .throw
    | some b' =>
      if b' ≠ b then
        if q ∈ op.acts then inner qs cs q b pre (mid ++ [.classic cc op]) rest
        else inner qs cs q b (advance pre mid (.classic cc op)).1 (advance pre mid (.classic cc op)).2 rest
      else match op with
        | .std o =>
          if q ∈ o.targets then .throw
          else inner qs cs q b (pre ++ [.other (.std (controlled q cc o))]) [] (mid ++ rest)
        | _ => .throw
  termination_by _ mid l => ((mid ++ l).countP isClassic, l.length)
  decreasing_by
    all_goals first
      | exact lex_of_le (count_stay _ _ _) (Nat.lt_succ_self _)
      | exact lex_of_le (count_advance _ _ _ _) (Nat.lt_succ_self _)
      | exact Prod.Lex.left _ _ (count_hit _ _ _ _)

/-- `qubitsToAddMeasurements[q] = b`. -/
def put (m : List (ℕ × ℕ)) (q b : ℕ) : List (ℕ × ℕ) :=
  if q ∈ m.map Prod.fst then m.map fun p => if p.1 = q then (q, b) else p else m ++ [(q, b)]

/-- The outer loop (766-937).  After a measurement has been erased, `it` points to the operation
behind it, which line 936 then skips.  The first argument bounds the number of operations left. -/
def outer : ℕ → List (ℕ × ℕ) → List (DOp P) → Res (List (ℕ × ℕ) × List (DOp P))
  | 0, m, l => .ok (m, l)
  | _ + 1, m, [] => .ok (m, [])
  | n + 1, m, .measure qs cs :: rest =>
    if qs.length ≠ 1 ∧ cs.length ≠ 1 then .throw
    else if rest.isEmpty then .ok (m, [.measure qs cs])
    else match qs, cs with
      | q :: _, b :: _ =>
        (inner qs cs q b [] [] rest).bind fun l =>
          match l with
          | [] => .ub
          | e :: l' => (outer n (put m q b) l').bind fun r => .ok (r.1, e :: r.2)
      | _, _ => .ub
  | n + 1, m, e :: rest => (outer n m rest).bind fun r => .ok (r.1, e :: r.2)

/-- The pass: the operations, and the measurements to be appended in some order. -/
def deferMeasurements (ops : List (DOp P)) : Res (List (ℕ × ℕ) × List (DOp P)) := outer ops.length [] ops

/-- A measurement. -/
def meas (p : ℕ × ℕ) : DOp P := .measure [p.1] [p.2]

/-- The final circuit when the map is traversed in the given order (942-944). -/
def finish (order : List (ℕ × ℕ)) (ops : List (DOp P)) : List (DOp P) := ops ++ order.map meas

/-! ### Equality up to the order of outcomes -/

/-- The same meaning when the outcomes are supplied in another order (which does not depend on the
outcomes or the state). -/
def Same (l l' : List (Op ℝ)) : Prop :=
  ∃ π : Equiv.Perm ℕ, ∀ c, run l c = run l' { c with orc := c.orc ∘ π }

theorem Same.refl (l : List (Op ℝ)) : Same l l := ⟨Equiv.refl _, fun _ => rfl⟩

theorem Same.trans {l l' l'' : List (Op ℝ)} (h : Same l l') (h' : Same l' l'') : Same l l'' := by
  obtain ⟨π, h⟩ := h
  obtain ⟨π', h'⟩ := h'
  exact ⟨π'.trans π, fun c => (h c).trans (h' _)⟩

theorem Same.append {l l' : List (Op ℝ)} (h : Same l l') (r : List (Op ℝ)) : Same (l ++ r) (l' ++ r) := by
  obtain ⟨π, h⟩ := h
  refine ⟨π, fun c => ?_⟩
  rw [run_append, run_append, h]

/-- `π` on the numbers from one on. -/
def up (π : Equiv.Perm ℕ) : Equiv.Perm ℕ where
  toFun n := match n with
    | 0 => 0
    | n + 1 => π n + 1
  invFun n := match n with
    | 0 => 0
    | n + 1 => π.symm n + 1
  left_inv n := by cases n <;> simp
  right_inv n := by cases n <;> simp

/-- How many outcomes an operation without classically controlled measurements takes. -/
def draw : DOp P → ℕ
  | .measure qs cs => (qs.zip cs).length
  | .reset qs => qs.length
  | _ => 0

mutual
/-- Unitary, also inside. -/
def unitary : Op P → Bool
  | .std _ => true
  | .compound ops _ => unitaryL ops
  | _ => false
def unitaryL : List (Op P) → Bool
  | [] => true
  | e :: l => unitary e && unitaryL l
end

mutual
theorem exec_unitary (e : Op ℝ) (h : unitary e = true) :
    ∃ f : State → Option State, ∀ c, exec e c = (f c.st).map fun ψ => { c with st := ψ } := by
  match e with
  | .std o =>
    refine ⟨fun ψ => o.denote.map fun f => f ψ, fun c => ?_⟩
    rw [exec]
    cases o.denote <;> rfl
  | .compound ops cu =>
    rw [unitary] at h
    obtain ⟨f, hf⟩ := run_unitary ops h
    exact ⟨f, fun c => by rw [exec]; exact hf c⟩
  | .measure _ _ => exact absurd h (by simp [unitary])
  | .reset _ => exact absurd h (by simp [unitary])
  | .classic _ _ => exact absurd h (by simp [unitary])
theorem run_unitary (l : List (Op ℝ)) (h : unitaryL l = true) :
    ∃ f : State → Option State, ∀ c, run l c = (f c.st).map fun ψ => { c with st := ψ } := by
  match l with
  | [] => exact ⟨fun ψ => some ψ, fun c => by rw [run]; rfl⟩
  | e :: l =>
    rw [unitaryL, Bool.and_eq_true] at h
    obtain ⟨f, hf⟩ := exec_unitary e h.1
    obtain ⟨g, hg⟩ := run_unitary l h.2
    refine ⟨fun ψ => (f ψ).bind g, fun c => ?_⟩
    show _ = Option.map _ ((f c.st).bind g)
    rw [run, hf]
    cases f c.st with
    | none => rfl
    | some ψ => simp only [Option.map_some, Option.bind_some]; rw [hg]
end

/-- Operations that use a fixed number of outcomes. -/
def Tame : DOp P → Prop
  | .other op => unitary op = true
  | .classic _ op => unitary op = true
  | _ => True

theorem measure_orc (z : List (ℕ × ℕ)) (c : Cfg) (o' : ℕ → Bool) (h : ∀ i < z.length, o' i = c.orc i) :
    z.foldl (fun c p => measure1 p.1 p.2 c) { c with orc := o' } =
      { z.foldl (fun c p => measure1 p.1 p.2 c) c with orc := fun n => o' (n + z.length) } := by
  induction z generalizing c o' with
  | nil => rfl
  | cons p z ih =>
    rw [List.foldl_cons, List.foldl_cons]
    have e1 : measure1 p.1 p.2 { c with orc := o' } =
        { measure1 p.1 p.2 c with orc := fun n => o' (n + 1) } := by
      simp only [measure1, h 0 (by simp)]
    rw [e1, ih _ (fun n => o' (n + 1)) fun i hi => h (i + 1) (by simpa using hi)]
    simp only [List.length_cons, Nat.add_assoc]

theorem reset_orc (z : List ℕ) (c : Cfg) (o' : ℕ → Bool) (h : ∀ i < z.length, o' i = c.orc i) :
    z.foldl (fun c q => reset1 q c) { c with orc := o' } =
      { z.foldl (fun c q => reset1 q c) c with orc := fun n => o' (n + z.length) } := by
  induction z generalizing c o' with
  | nil => rfl
  | cons p z ih =>
    rw [List.foldl_cons, List.foldl_cons]
    have e1 : reset1 p { c with orc := o' } = { reset1 p c with orc := fun n => o' (n + 1) } := by
      simp only [reset1, h 0 (by simp)]
    rw [e1, ih _ (fun n => o' (n + 1)) fun i hi => h (i + 1) (by simpa using hi)]
    simp only [List.length_cons, Nat.add_assoc]

theorem unitary_orc {op : Op ℝ} (h : unitary op = true) (c : Cfg) (o' : ℕ → Bool) :
    exec op { c with orc := o' } = (exec op c).map fun d => { d with orc := o' } := by
  obtain ⟨f, hf⟩ := exec_unitary op h
  rw [hf, hf]
  cases f c.st <;> rfl

/-- A tame operation reads the outcomes it takes and no others. -/
theorem exec_orc {e : DOp ℝ} (he : Tame e) (c : Cfg) (o' : ℕ → Bool) (h : ∀ i < draw e, o' i = c.orc i) :
    exec e.toOp { c with orc := o' } =
      (exec e.toOp c).map fun d => { d with orc := fun n => o' (n + draw e) } := by
  match e with
  | .other op => exact unitary_orc he c o'
  | .measure qs cs =>
    rw [DOp.toOp, exec, exec, measure_orc _ c o' h]
    rfl
  | .reset qs =>
    rw [DOp.toOp, exec, exec, reset_orc _ c o' h]
    rfl
  | .classic cc op =>
    rw [DOp.toOp, exec, exec]
    simp only
    split_ifs
    · exact unitary_orc he c o'
    · rfl

/-- `π` on the numbers from `k` on. -/
def upN : ℕ → Equiv.Perm ℕ → Equiv.Perm ℕ
  | 0, π => π
  | k + 1, π => up (upN k π)

theorem upN_lt (k : ℕ) (π : Equiv.Perm ℕ) (i : ℕ) (h : i < k) : upN k π i = i := by
  induction k generalizing i with
  | zero => omega
  | succ k ih =>
    cases i with
    | zero => rfl
    | succ i => exact congrArg (· + 1) (ih i (by omega))

theorem upN_add (k : ℕ) (π : Equiv.Perm ℕ) (n : ℕ) : upN k π (n + k) = π n + k := by
  induction k with
  | zero => rfl
  | succ k ih => exact congrArg (· + 1) ih

theorem Same.cons {e : DOp ℝ} (he : Tame e) {l l' : List (Op ℝ)} (h : Same l l') :
    Same (e.toOp :: l) (e.toOp :: l') := by
  obtain ⟨π, h⟩ := h
  refine ⟨upN (draw e) π, fun c => ?_⟩
  rw [run_cons, run_cons, exec_orc he c (c.orc ∘ upN (draw e) π) fun i hi => congrArg c.orc (upN_lt _ _ _ hi)]
  have h1 := exec_orc he c c.orc fun _ _ => rfl
  cases hd : exec e.toOp c with
  | none => rfl
  | some d =>
    have h2 : exec e.toOp { c with orc := c.orc } = some d := hd
    rw [h2, Option.map_some, Option.some.injEq] at h1
    have h3 : d.orc = fun n => c.orc (n + draw e) := by rw [h1]
    rw [Option.map_some, Option.bind_some, Option.bind_some, h]
    congr 2
    funext n
    show d.orc (π n) = c.orc (upN (draw e) π (n + draw e))
    rw [upN_add, h3]

theorem Same.prefix {l l' : List (Op ℝ)} (h : Same l l') (p : List (DOp ℝ)) (hp : ∀ e ∈ p, Tame e) :
    Same (p.map DOp.toOp ++ l) (p.map DOp.toOp ++ l') := by
  induction p with
  | nil => exact h
  | cons e p ih =>
    exact Same.cons (hp e (by simp)) (ih fun e he => hp e (List.mem_cons_of_mem _ he))

/-! ### One measurement past one operation -/

theorem app1_proj (o : Bool) (q : ℕ) (ψ : State) (x : Bits) :
    app1 (projM o) q ψ x = if x q = o then ψ x else 0 := by
  have h : ∀ b, update x q b = x ∨ b ≠ x q := by
    intro b
    by_cases hb : b = x q
    · left; rw [hb]; exact Function.update_eq_self q x
    · exact Or.inr hb
  simp only [app1, projM, Fintype.sum_bool]
  cases hx : x q <;> cases o <;> simp [← hx]

mutual
theorem passes_app1 (e : Op ℝ) (h : unitary e = true) (M : Mat1) {q : ℕ} (hq : q ∉ e.acts) (c : Cfg) :
    exec e (c.mapSt (app1 M q)) = (exec e c).map (Cfg.mapSt (app1 M q)) := by
  match e with
  | .std o =>
    rw [exec, exec]
    rw [Op.acts] at hq
    cases hf : o.denote with
    | none => rfl
    | some f => simp only [Option.map_some, Cfg.mapSt, denote_comm_app1 hf M hq]
  | .compound ops cu =>
    rw [unitary] at h
    rw [Op.acts] at hq
    rw [exec, exec]
    exact passes_app1_run ops h M hq c
  | .measure _ _ => exact absurd h (by simp [unitary])
  | .reset _ => exact absurd h (by simp [unitary])
  | .classic _ _ => exact absurd h (by simp [unitary])
theorem passes_app1_run (l : List (Op ℝ)) (h : unitaryL l = true) (M : Mat1) {q : ℕ} (hq : q ∉ Op.actsL l)
    (c : Cfg) : run l (c.mapSt (app1 M q)) = (run l c).map (Cfg.mapSt (app1 M q)) := by
  match l with
  | [] => rw [run, run]; rfl
  | e :: l =>
    rw [unitaryL, Bool.and_eq_true] at h
    rw [Op.actsL, Finset.mem_union, not_or] at hq
    rw [run, run, passes_app1 e h.1 M hq.1]
    cases exec e c with
    | none => rfl
    | some d => exact passes_app1_run l h.2 M hq.2 d
end

/-- A measurement passes a unitary operation on other qubits. -/
theorem measure_unitary {op : Op ℝ} (h : unitary op = true) {q : ℕ} (b : ℕ) (hq : q ∉ op.acts) (c : Cfg) :
    exec op (measure1 q b c) = (exec op c).map (measure1 q b) := by
  obtain ⟨f, hf⟩ := exec_unitary op h
  have h1 := passes_app1 op h (projM (c.orc 0)) hq c
  rw [hf, hf] at h1
  rw [hf, hf]
  have h2 : (f (app1 (projM (c.orc 0)) q c.st)) = (f c.st).map (app1 (projM (c.orc 0)) q) := by
    have h3 : (c.mapSt (app1 (projM (c.orc 0)) q)).st = app1 (projM (c.orc 0)) q c.st := rfl
    rw [h3] at h1
    cases h4 : f (app1 (projM (c.orc 0)) q c.st) with
    | none => rw [h4] at h1; cases h5 : f c.st with
      | none => rfl
      | some _ => rw [h5] at h1; cases h1
    | some φ => rw [h4] at h1; cases h5 : f c.st with
      | none => rw [h5] at h1; cases h1
      | some φ' =>
        rw [h5] at h1
        simp only [Option.map_some, Option.some.injEq, Cfg.mapSt, Cfg.mk.injEq] at h1
        rw [Option.map_some, h1.1]
  show (f (app1 (projM (c.orc 0)) q c.st)).map _ = _
  rw [h2]
  cases f c.st <;> rfl

theorem exec_meas (p : ℕ × ℕ) (c : Cfg) : exec (meas (P := ℝ) p).toOp c = some (measure1 p.1 p.2 c) := by
  rw [meas, DOp.toOp, exec]
  rfl

/-- Two measurements of different qubits into different bits. -/
theorem same_swap {p p' : ℕ × ℕ} (hq : p.1 ≠ p'.1) (hb : p.2 ≠ p'.2) :
    Same [(meas p).toOp, (meas p').toOp] [(meas p').toOp, (meas p).toOp] := by
  refine ⟨Equiv.swap 0 1, fun c => ?_⟩
  rw [run_cons, exec_meas, Option.bind_some, run_singleton, exec_meas, run_cons, exec_meas, Option.bind_some,
    run_singleton, exec_meas]
  simp only [measure1, Function.comp, Equiv.swap_apply_left, Nat.zero_add, Equiv.swap_apply_right]
  congr 2
  · exact app1_app1_comm _ _ hq.symm _
  · exact Function.update_comm hb _ _ _

/-- What the condition tests: `none`, nothing (no register and no bit given). -/
def Tests (cc : CC) (b : ℕ) : Prop := condBit cc = some b ∧ (cc.reg ≠ none ∨ cc.bit ≠ none)

theorem fires_eq {cc : CC} {b : ℕ} (h : Tests cc b) (m : ℕ → Bool) :
    cc.fires m = some (cc.kind.holds (if m b then 1 else 0) cc.expected) := by
  obtain ⟨reg, bit, ex, kd⟩ := cc
  obtain ⟨h1, h2⟩ := h
  simp only [condBit] at h1
  cases bit with
  | some b' =>
    have hb : b' = b := by
      cases reg with
      | none => simpa using h1
      | some r => obtain ⟨s, n⟩ := r; simp only at h1; split_ifs at h1; simpa using h1
    subst hb
    rfl
  | none =>
    cases reg with
    | none => simp at h2
    | some r =>
      obtain ⟨s, n⟩ := r
      simp only at h1
      split_ifs at h1 with hn
      simp only [Option.getD_none, Option.some.injEq] at h1
      rw [not_not] at hn
      subst hn h1
      simp only [CC.fires, CC.regValue, Option.bind_some, Nat.add_zero]
      by_cases hm : m s = true
      · simp [hm]
      · simp [hm]

/-- A condition on another bit. -/
theorem fires_update {cc : CC} {b b' : ℕ} (h : condBit cc = some b') (hb : b' ≠ b) (m : ℕ → Bool) (v : Bool) :
    cc.fires (update m b v) = cc.fires m := by
  by_cases ht : cc.reg ≠ none ∨ cc.bit ≠ none
  · rw [fires_eq ⟨h, ht⟩, fires_eq ⟨h, ht⟩, Function.update_of_ne hb]
  · simp only [not_or, not_not] at ht
    simp only [CC.fires, ht.1, ht.2]

/-- The condition "bit `b` has the expected value". -/
structure Plain (cc : CC) (b : ℕ) : Prop where
  tests : Tests cc b
  kind : cc.kind = .eq
  expected : cc.expected ≤ 1

theorem fires_plain {cc : CC} {b : ℕ} (h : Plain cc b) (m : ℕ → Bool) :
    cc.fires m = some (decide (m b = decide (cc.expected = 1))) := by
  rw [fires_eq h.tests, h.kind, Cmp.holds]
  have := h.expected
  have h2 : cc.expected = 0 ∨ cc.expected = 1 := by omega
  rcases h2 with h2 | h2 <;> rw [h2] <;> cases m b <;> rfl

theorem sat_insert (cs : Finset Ctrl) (q : ℕ) (v : Bool) (x : Bits) :
    Sat (insert (q, v) cs) x ↔ x q = v ∧ Sat cs x := by
  simp [Sat]

theorem ctl_insert (cs : Finset Ctrl) (q : ℕ) (v : Bool) (A : State → State) (ψ : State) (x : Bits) :
    ctl (insert (q, v) cs) A ψ x = if x q = v then ctl cs A ψ x else ψ x := by
  simp only [ctl, sat_insert]
  by_cases h : x q = v <;> simp [h]

theorem controlled_denote {o : StdOp ℝ} {f : State → State} (hf : o.denote = some f) (q : ℕ) (cc : CC) :
    ∃ f', (controlled q cc o).denote = some f' ∧
      ∀ ψ x, f' ψ x = if x q = decide (cc.expected = 1) then f ψ x else ψ x := by
  rcases StdOp.denote_cases hf with ⟨hb, rfl⟩ | ⟨hg, θ, h1, rfl⟩ | ⟨hs, r, M, h1, h2, rfl⟩ |
    ⟨ht, r0, r1, M, h1, h2, rfl⟩
  · exact ⟨_, StdOp.denote_barrier (o := controlled q cc o) hb, fun ψ x => by simp⟩
  · refine ⟨_, (StdOp.denote_gphase (o := controlled q cc o) hg).trans ?_, fun ψ x => ctl_insert _ _ _ _ _ _⟩
    show o.params[0]?.map _ = _
    rw [h1]
    rfl
  · exact ⟨_, StdOp.denote_single_of (o := controlled q cc o) hs h1 h2, fun ψ x => ctl_insert _ _ _ _ _ _⟩
  · exact ⟨_, StdOp.denote_two_of (o := controlled q cc o) ht h1 h2, fun ψ x => ctl_insert _ _ _ _ _ _⟩

/-- Measuring a bit and then testing it is controlling on the qubit and then measuring. -/
theorem measure_classic {o : StdOp ℝ} {f : State → State} (hf : o.denote = some f) {q b : ℕ} (hq : q ∉ o.used)
    {cc : CC} (hc : Plain cc b) (c : Cfg) :
    exec (DOp.classic cc (.std o)).toOp (measure1 q b c) =
      (exec (.std (controlled q cc o)) c).map (measure1 q b) := by
  obtain ⟨f', hf', h⟩ := controlled_denote hf q cc
  rw [DOp.toOp, exec, exec, exec, hf, hf', fires_plain hc, Option.map_some, Option.map_some, Option.map_some]
  have hm : (measure1 q b c).mem b = c.orc 0 := by simp [measure1]
  rw [hm]
  simp only [Option.getD_some, decide_eq_true_eq]
  have hst : ∀ x, app1 (projM (c.orc 0)) q (f' c.st) x =
      if c.orc 0 = decide (cc.expected = 1) then f (app1 (projM (c.orc 0)) q c.st) x
      else app1 (projM (c.orc 0)) q c.st x := by
    intro x
    rw [denote_comm_app1 hf _ hq, app1_proj, app1_proj, app1_proj, h]
    by_cases hx : x q = c.orc 0
    · simp only [hx, if_true]
    · simp [hx]
  split_ifs with hv
  · simp only [measure1, Cfg.mapSt]
    congr 2
    funext x
    rw [hst, if_pos hv]
  · simp only [measure1, Cfg.mapSt]
    congr 2
    funext x
    rw [hst, if_neg hv]

/-! ### One measurement to the end -/

/-- What the code makes of an operation behind the measurement of `q` into `b`. -/
def conv (q b : ℕ) : DOp P → DOp P
  | .classic cc (.std o) => if condBit cc = some b then .other (.std (controlled q cc o)) else .classic cc (.std o)
  | e => e

/-- Nothing acts on the measured qubit any more, the bit is not written again, and conditions on it
have the form "the bit has the expected value". -/
def Terminal (q b : ℕ) : DOp P → Prop
  | .other op => unitary op = true ∧ q ∉ op.acts
  | .measure qs cs => ∃ p : ℕ × ℕ, qs = [p.1] ∧ cs = [p.2] ∧ q ≠ p.1 ∧ b ≠ p.2
  | .reset _ => False
  | .classic cc op => ∃ o b', op = .std o ∧ q ∉ o.used ∧ condBit cc = some b' ∧ (b' = b → Plain cc b)

theorem inner_terminal (qs cs : List ℕ) (q b : ℕ) (hqs : q ∈ qs) (rest pre : List (DOp P))
    (h : ∀ e ∈ rest, Terminal q b e) : inner qs cs q b pre [] rest = .ok (pre ++ rest.map (conv q b)) := by
  induction rest generalizing pre with
  | nil => rw [inner, List.map_nil]
  | cons e rest ih =>
    have he := h e (by simp)
    have ih' : ∀ e', inner qs cs q b (pre ++ [e']) [] rest = .ok (pre ++ e' :: rest.map (conv q b)) := by
      intro e'
      rw [ih _ fun e he => h e (List.mem_cons_of_mem _ he), List.append_assoc]
      rfl
    have had : advance pre [] e = (pre ++ [e], []) := rfl
    rw [List.map_cons]
    match e with
    | .other op =>
      rw [inner, if_neg he.2, had]
      exact ih' _
    | .measure qs' cs' =>
      rw [inner, if_neg, had]
      · exact ih' _
      · rintro ⟨rfl, -⟩
        obtain ⟨p, rfl, -, hp, -⟩ := he
        exact hp (List.mem_singleton.1 hqs)
    | .reset _ => exact he.elim
    | .classic cc op =>
      obtain ⟨o, b', rfl, h1, h2, h3⟩ := he
      rw [inner, h2]
      simp only
      by_cases hb : b' = b
      · subst hb
        rw [if_neg (not_not.2 rfl), if_neg fun hh => h1 (StdOp.mem_used.2 (Or.inl hh)), List.nil_append, conv, if_pos h2]
        exact ih' _
      · rw [if_pos hb, if_neg (by rw [Op.acts]; exact h1), had, conv, if_neg (by rw [h2]; simpa using hb)]
        exact ih' _

theorem conv_tame {q b : ℕ} {e : DOp P} (h : Terminal q b e) : Tame (conv q b e) := by
  match e with
  | .other op => exact h.1
  | .measure _ _ => trivial
  | .reset _ => exact h.elim
  | .classic cc op =>
    obtain ⟨o, b', rfl, -⟩ := h
    rw [conv]
    split_ifs <;> rfl

theorem same_step {q b : ℕ} {e : DOp ℝ} (h : Terminal q b e) (hv : e.toOp.Valid) :
    Same [(meas (q, b)).toOp, e.toOp] [(conv q b e).toOp, (meas (q, b)).toOp] := by
  have key : ∀ e' : Op ℝ, (∀ c, exec e.toOp (measure1 q b c) = (exec e' c).map (measure1 q b)) →
      Same [(meas (q, b)).toOp, e.toOp] [e', (meas (q, b)).toOp] := by
    intro e' he
    refine ⟨Equiv.refl _, fun c => ?_⟩
    rw [run_cons, exec_meas, Option.bind_some, run_singleton, he, run_cons]
    have : ({ c with orc := c.orc ∘ Equiv.refl ℕ } : Cfg) = c := rfl
    rw [this]
    cases exec e' c with
    | none => rfl
    | some d => rw [Option.map_some, Option.bind_some, run_singleton, exec_meas]
  match e with
  | .other op => exact key _ fun c => measure_unitary h.1 b h.2 c
  | .measure qs cs =>
    obtain ⟨p, rfl, rfl, h1, h2⟩ := h
    exact same_swap (p := (q, b)) (p' := p) h1 h2
  | .reset _ => exact h.elim
  | .classic cc op =>
    obtain ⟨o, b', rfl, h1, h2, h3⟩ := h
    rw [DOp.toOp, Op.Valid, Op.Valid] at hv
    obtain ⟨-, f, hf⟩ := hv
    by_cases hb : b' = b
    · rw [conv, if_pos (by rw [h2, hb])]
      exact key _ fun c => measure_classic hf h1 (h3 hb) c
    · rw [conv, if_neg (by rw [h2]; simpa using hb)]
      refine key _ fun c => ?_
      have ex : ∀ d, exec (DOp.classic cc (.std o)).toOp d =
          if (cc.fires d.mem).getD false then exec (.std o) d else some d := fun d => by simp only [DOp.toOp, exec]
      have hm : (measure1 q b c).mem = update c.mem b (c.orc 0) := rfl
      rw [ex, ex, hm, fires_update h2 hb]
      split_ifs
      · exact measure_unitary rfl b (by rw [Op.acts]; exact h1) c
      · rfl

theorem same_end {q b : ℕ} (rest : List (DOp ℝ)) (h : ∀ e ∈ rest, Terminal q b e)
    (hv : ∀ e ∈ rest, e.toOp.Valid) :
    Same ((meas (q, b)).toOp :: rest.map DOp.toOp)
      ((rest.map (conv q b)).map DOp.toOp ++ [(meas (q, b)).toOp]) := by
  induction rest with
  | nil => exact Same.refl _
  | cons e rest ih =>
    have h1 := (same_step (h e (by simp)) (hv e (by simp))).append (rest.map DOp.toOp)
    have h2 := Same.cons (conv_tame (h e (by simp))) (ih (fun e he => h e (List.mem_cons_of_mem _ he))
      fun e he => hv e (List.mem_cons_of_mem _ he))
    exact h1.trans h2

/-! ### All measurements -/

/-- Every measurement is of one qubit into one bit and terminal for both; classically controlled
operations wrap unitary ones. -/
def Good : List (DOp P) → Prop
  | [] => True
  | e :: l => Tame e ∧ (∀ qs cs, e = .measure qs cs →
      ∃ p : ℕ × ℕ, qs = [p.1] ∧ cs = [p.2] ∧ ∀ e' ∈ l, Terminal p.1 p.2 e') ∧ Good l

theorem conv_valid {q b : ℕ} {e : DOp ℝ} (h : Terminal q b e) (hv : e.toOp.Valid) : (conv q b e).toOp.Valid := by
  match e with
  | .other _ => exact hv
  | .measure _ _ => exact hv
  | .reset _ => exact hv
  | .classic cc op =>
    obtain ⟨o, b', rfl, h1, -⟩ := h
    rw [conv]
    split_ifs
    · rw [DOp.toOp, Op.Valid, Op.Valid] at hv
      obtain ⟨hw, f, hf⟩ := hv
      obtain ⟨f', hf', -⟩ := controlled_denote hf q cc
      rw [DOp.toOp, Op.Valid]
      refine ⟨⟨hw.nodup, fun r hr hc => ?_⟩, f', hf'⟩
      simp only [controlled, ctrlQubits, Finset.image_insert, Finset.mem_insert] at hc
      rcases hc with rfl | hc
      · exact h1 (StdOp.mem_used.2 (Or.inl hr))
      · exact hw.disj r hr hc
    · exact hv

theorem conv_terminal {q b q' b' : ℕ} (hq : q' ≠ q) {e : DOp P} (h : Terminal q b e)
    (h' : Terminal q' b' e) : Terminal q' b' (conv q b e) := by
  match e with
  | .other _ => exact h'
  | .measure _ _ => exact h'
  | .reset _ => exact h'
  | .classic cc op =>
    obtain ⟨o, b'', rfl, h1, h2⟩ := h'
    rw [conv]
    split_ifs
    · refine ⟨rfl, ?_⟩
      rw [Op.acts, StdOp.mem_used]
      rintro (hr | hr)
      · exact h1 (StdOp.mem_used.2 (Or.inl hr))
      · simp only [controlled, ctrlQubits, Finset.image_insert, Finset.mem_insert] at hr
        rcases hr with rfl | hr
        · exact hq rfl
        · exact h1 (StdOp.mem_used.2 (Or.inr hr))
    · exact ⟨o, b'', rfl, h1, h2⟩

theorem conv_measure {q b : ℕ} {e : DOp P} {qs cs : List ℕ} (h : conv q b e = .measure qs cs) :
    e = .measure qs cs := by
  match e with
  | .other _ => exact h
  | .measure _ _ => exact h
  | .reset _ => exact h
  | .classic cc op =>
    match op with
    | .std o => rw [conv] at h; split_ifs at h
    | .compound _ _ => exact h
    | .measure _ _ => exact h
    | .reset _ => exact h
    | .classic _ _ => exact h

theorem good_conv {q b : ℕ} (l : List (DOp P)) (h : ∀ e ∈ l, Terminal q b e) (hg : Good l) :
    Good (l.map (conv q b)) := by
  induction l with
  | nil => trivial
  | cons e l ih =>
    obtain ⟨-, h2, h3⟩ := hg
    refine ⟨conv_tame (h e (by simp)), fun qs cs he => ?_, ih (fun e he => h e (List.mem_cons_of_mem _ he)) h3⟩
    have he := conv_measure he
    obtain ⟨p, rfl, rfl, h4⟩ := h2 qs cs he
    refine ⟨p, rfl, rfl, fun e' he' => ?_⟩
    obtain ⟨e'', h5, rfl⟩ := List.mem_map.1 he'
    have h6 := h e (by simp)
    rw [he] at h6
    obtain ⟨p', h7, -, h8, -⟩ := h6
    rw [List.cons.injEq] at h7
    exact conv_terminal (by rw [h7.1]; exact h8.symm) (h e'' (List.mem_cons_of_mem _ h5)) (h4 e'' h5)

/-- The measurements of a circuit. -/
def pairs : List (DOp P) → List (ℕ × ℕ)
  | [] => []
  | .measure qs cs :: l => qs.zip cs ++ pairs l
  | _ :: l => pairs l

theorem pairs_append (l l' : List (DOp P)) : pairs (l ++ l') = pairs l ++ pairs l' := by
  induction l with
  | nil => rfl
  | cons e l ih => cases e <;> simp [pairs, ih]

theorem mem_pairs {l : List (DOp P)} {qs cs : List ℕ} {p : ℕ × ℕ} (h : .measure qs cs ∈ l)
    (hp : p ∈ qs.zip cs) : p ∈ pairs l := by
  obtain ⟨a, b, rfl⟩ := List.append_of_mem h
  rw [pairs_append, pairs]
  simp [hp]

theorem of_mem_pairs {l : List (DOp P)} {p : ℕ × ℕ} (h : p ∈ pairs l) :
    ∃ qs cs, .measure qs cs ∈ l ∧ p ∈ qs.zip cs := by
  induction l with
  | nil => cases h
  | cons e l ih =>
    have lift : p ∈ pairs l → ∃ qs cs, .measure qs cs ∈ e :: l ∧ p ∈ qs.zip cs := by
      intro h
      obtain ⟨qs, cs, h1, h2⟩ := ih h
      exact ⟨qs, cs, List.mem_cons_of_mem _ h1, h2⟩
    match e, h, lift with
    | .measure qs cs, h, lift =>
      rw [pairs, List.mem_append] at h
      rcases h with h | h
      · exact ⟨qs, cs, by simp, h⟩
      · exact lift h
    | .other _, h, lift => exact lift h
    | .reset _, h, lift => exact lift h
    | .classic _ _, h, lift => exact lift h

/-- Distinct qubits, distinct bits. -/
def Apart (ms : List (ℕ × ℕ)) : Prop := ms.Pairwise fun p p' => p.1 ≠ p'.1 ∧ p.2 ≠ p'.2

theorem Apart.symm_of {ms ms' : List (ℕ × ℕ)} (h : ms.Perm ms') (ha : Apart ms) : Apart ms' :=
  (h.pairwise_iff fun h => ⟨h.1.symm, h.2.symm⟩).1 ha

theorem same_perm {ms ms' : List (ℕ × ℕ)} (h : ms.Perm ms') (ha : Apart ms) :
    Same (ms.map fun p => (meas p).toOp) (ms'.map fun p => (meas p).toOp) := by
  induction h with
  | nil => exact Same.refl _
  | cons p _ ih => exact Same.cons (e := meas p) trivial (ih (List.pairwise_cons.1 ha).2)
  | swap p p' l =>
    have h1 := (List.pairwise_cons.1 ha).1 p (by simp)
    exact (same_swap h1.1 h1.2).append (l.map fun p => (meas p).toOp)
  | trans h1 _ ih1 ih2 => exact (ih1 ha).trans (ih2 (ha.symm_of h1))

theorem pairs_conv {q b : ℕ} (l : List (DOp P)) (h : ∀ e ∈ l, Terminal q b e) :
    pairs (l.map (conv q b)) = pairs l := by
  induction l with
  | nil => rfl
  | cons e l ih =>
    have ih := ih fun e he => h e (List.mem_cons_of_mem _ he)
    have he := h e (by simp)
    match e, he with
    | .other _, _ => exact ih
    | .measure qs cs, _ => exact congrArg (qs.zip cs ++ ·) ih
    | .reset _, _ => exact ih
    | .classic cc op, he =>
      obtain ⟨o, b', rfl, -⟩ := he
      rw [List.map_cons, conv]
      split_ifs <;> exact ih

theorem good_apart (l : List (DOp P)) (h : Good l) : Apart (pairs l) := by
  induction l with
  | nil => exact List.Pairwise.nil
  | cons e l ih =>
    obtain ⟨-, h2, h3⟩ := h
    match e, h2 with
    | .other _, _ => exact ih h3
    | .reset _, _ => exact ih h3
    | .classic _ _, _ => exact ih h3
    | .measure qs cs, h2 =>
      obtain ⟨p, rfl, rfl, h4⟩ := h2 _ _ rfl
      refine List.pairwise_cons.2 ⟨fun p' hp' => ?_, ih h3⟩
      obtain ⟨qs, cs, h5, h6⟩ := of_mem_pairs hp'
      obtain ⟨p'', rfl, rfl, h7, h8⟩ := h4 _ h5
      rw [List.zip_cons_cons, List.zip_nil_left, List.mem_singleton] at h6
      rw [h6]
      exact ⟨h7, h8⟩

theorem outer_good (n : ℕ) (l : List (DOp ℝ)) (hn : l.length ≤ n) (hg : Good l) (hv : ∀ e ∈ l, e.toOp.Valid)
    (m : List (ℕ × ℕ)) (hm : ∀ p ∈ pairs l, p.1 ∉ m.map Prod.fst) :
    ∃ ms l', outer n m l = .ok (m ++ ms, l') ∧ ms.Sublist (pairs l) ∧ (∀ e ∈ l', Tame e) ∧
      Same (l.map DOp.toOp) (l'.map DOp.toOp ++ ms.reverse.map fun p => (meas p).toOp) := by
  induction n generalizing l m with
  | zero =>
    have : l = [] := List.length_eq_zero_iff.1 (by omega)
    subst this
    exact ⟨[], [], by rw [outer, List.append_nil], List.Sublist.refl _, by simp, Same.refl _⟩
  | succ n ih =>
    match l, hn, hg, hv, hm with
    | [], _, _, _, _ => exact ⟨[], [], by rw [outer, List.append_nil], List.Sublist.refl _, by simp, Same.refl _⟩
    | e :: rest, hn, hg, hv, hm =>
      obtain ⟨h1, h2, h3⟩ := hg
      have hv' : ∀ e ∈ rest, e.toOp.Valid := fun e he => hv e (List.mem_cons_of_mem _ he)
      have other : (∀ qs cs, e ≠ .measure qs cs) → ∃ ms l', outer (n + 1) m (e :: rest) = .ok (m ++ ms, l') ∧
          ms.Sublist (pairs (e :: rest)) ∧ (∀ e ∈ l', Tame e) ∧
          Same ((e :: rest).map DOp.toOp) (l'.map DOp.toOp ++ ms.reverse.map fun p => (meas p).toOp) := by
        intro hne
        have hp : pairs (e :: rest) = pairs rest := by
          cases e with
          | measure qs cs => exact absurd rfl (hne qs cs)
          | _ => rfl
        rw [hp] at hm ⊢
        obtain ⟨ms, l', a1, a2, a4, a3⟩ := ih rest (by simpa using hn) h3 hv' m hm
        refine ⟨ms, e :: l', ?_, a2, List.forall_mem_cons.2 ⟨h1, a4⟩, Same.cons h1 a3⟩
        cases e with
        | measure qs cs => exact absurd rfl (hne qs cs)
        | other _ => rw [outer, a1]; rfl; intros; contradiction
        | reset _ => rw [outer, a1]; rfl; intros; contradiction
        | classic _ _ => rw [outer, a1]; rfl; intros; contradiction
      match e with
      | .other _ => exact other (by intros; simp)
      | .reset _ => exact other (by intros; simp)
      | .classic _ _ => exact other (by intros; simp)
      | .measure qs cs =>
        clear other
        obtain ⟨⟨q, b⟩, rfl, rfl, h4⟩ := h2 _ _ rfl
        match rest with
        | [] =>
          exact ⟨[], [.measure [q] [b]], by rw [outer, if_neg (by simp), if_pos (show ([] : List (DOp ℝ)).isEmpty = true from rfl), List.append_nil],
            List.nil_sublist _, List.forall_mem_singleton.2 trivial, Same.refl _⟩
        | e1 :: rest1 =>
          have hs := same_end (e1 :: rest1) h4 hv'
          have hin := inner_terminal [q] [b] q b (by simp) (e1 :: rest1) [] h4
          have hg' := good_conv _ h4 h3
          have hp := pairs_conv (e1 :: rest1) h4
          have hap := List.pairwise_cons.1 (good_apart (.measure [q] [b] :: e1 :: rest1) ⟨h1, h2, h3⟩)
          have hp1 := pairs_conv rest1 fun e he => h4 e (List.mem_cons_of_mem _ he)
          have hsub : (pairs rest1).Sublist (pairs (e1 :: rest1)) := by
            cases e1 with
            | measure qs cs => exact List.sublist_append_right _ _
            | _ => exact List.Sublist.refl _
          obtain ⟨ms, l', a1, a2, a4, a3⟩ := ih (rest1.map (conv q b)) (by simp at hn ⊢; omega) hg'.2.2
            (fun e he => by
              obtain ⟨e', he', rfl⟩ := List.mem_map.1 he
              exact conv_valid (h4 e' (List.mem_cons_of_mem _ he')) (hv' e' (List.mem_cons_of_mem _ he')))
            (m ++ [(q, b)]) (fun p hpp => by
              rw [hp1] at hpp
              have hpp := hsub.subset hpp
              rw [List.map_append, List.mem_append, not_or]
              refine ⟨hm p (List.mem_cons_of_mem _ hpp), ?_⟩
              rw [List.map_singleton, List.mem_singleton]
              exact (hap.1 p hpp).1.symm)
          refine ⟨(q, b) :: ms, conv q b e1 :: l', ?_, ?_, List.forall_mem_cons.2 ⟨conv_tame (h4 e1 (by simp)), a4⟩, ?_⟩
          · rw [outer, if_neg (by simp), if_neg (by simp)]
            simp only
            rw [hin]
            simp only [List.nil_append, List.map_cons, Res.bind]
            rw [put, if_neg (hm (q, b) (List.mem_cons_self ..)), a1]
            simp
          · rw [hp1] at a2
            exact List.Sublist.cons_cons _ (a2.trans hsub)
          · have h5 := (Same.cons (conv_tame (h4 e1 (by simp))) a3).append [(meas (q, b)).toOp]
            refine hs.trans ?_
            rw [List.reverse_cons, List.map_append, List.map_cons, List.map_cons, List.cons_append, ← List.append_assoc]
            exact h5

/-! ### Circuits with one measurement, and exceptions -/

/-- Not a measurement. -/
def isMeasure : DOp P → Bool
  | .measure _ _ => true
  | _ => false

theorem outer_keep (n : ℕ) (l : List (DOp P)) (m : List (ℕ × ℕ)) (h : ∀ e ∈ l, isMeasure e = false) :
    outer n m l = .ok (m, l) := by
  induction n generalizing l with
  | zero => rw [outer]
  | succ n ih =>
    match l with
    | [] => rw [outer]
    | e :: l =>
      have ih := ih l fun e he => h e (List.mem_cons_of_mem _ he)
      have he := h e (by simp)
      cases e with
      | measure _ _ => cases he
      | other _ => rw [outer, ih]; rfl; intros; contradiction
      | reset _ => rw [outer, ih]; rfl; intros; contradiction
      | classic _ _ => rw [outer, ih]; rfl; intros; contradiction

/-- Operations before the first measurement are kept. -/
theorem outer_prefix (pre l : List (DOp P)) (n : ℕ) (m : List (ℕ × ℕ)) (h : ∀ e ∈ pre, isMeasure e = false) :
    outer (pre.length + n) m (pre ++ l) = (outer n m l).bind fun r => .ok (r.1, pre ++ r.2) := by
  induction pre with
  | nil =>
    rw [List.length_nil, Nat.zero_add, List.nil_append]
    cases outer n m l <;> rfl
  | cons e pre ih =>
    have ih := ih fun e he => h e (List.mem_cons_of_mem _ he)
    have he := h e (by simp)
    have hl : (e :: pre).length + n = pre.length + n + 1 := by simp only [List.length_cons]; omega
    rw [hl, List.cons_append]
    cases e with
    | measure _ _ => cases he
    | other _ => rw [outer, ih]; cases outer n m l <;> rfl; intros; contradiction
    | reset _ => rw [outer, ih]; cases outer n m l <;> rfl; intros; contradiction
    | classic _ _ => rw [outer, ih]; cases outer n m l <;> rfl; intros; contradiction

theorem inner_throw (qs cs : List ℕ) (q b : ℕ) (hqs : q ∈ qs) (rest r pre : List (DOp P))
    (h : ∀ e ∈ rest, Terminal q b e) (hr : ∀ pre, inner qs cs q b pre [] r = .throw) :
    inner qs cs q b pre [] (rest ++ r) = .throw := by
  induction rest generalizing pre with
  | nil => exact hr pre
  | cons e rest ih =>
    have he := h e (by simp)
    have ih' : ∀ e', inner qs cs q b (pre ++ [e']) [] (rest ++ r) = .throw := fun e' =>
      ih _ fun e he => h e (List.mem_cons_of_mem _ he)
    have had : advance pre [] e = (pre ++ [e], []) := rfl
    rw [List.cons_append]
    match e with
    | .other op =>
      rw [inner, if_neg he.2, had]
      exact ih' _
    | .measure qs' cs' =>
      rw [inner, if_neg, had]
      · exact ih' _
      · rintro ⟨rfl, -⟩
        obtain ⟨p, rfl, -, hp, -⟩ := he
        exact hp (List.mem_singleton.1 hqs)
    | .reset _ => exact he.elim
    | .classic cc op =>
      obtain ⟨o, b', rfl, h1, h2, h3⟩ := he
      rw [inner, h2]
      simp only
      by_cases hb : b' = b
      · subst hb
        rw [if_neg (not_not.2 rfl), if_neg fun hh => h1 (StdOp.mem_used.2 (Or.inl hh)), List.nil_append]
        exact ih' _
      · rw [if_pos hb, if_neg (by rw [Op.acts]; exact h1), had]
        exact ih' _

/-- What the pass does at the first measurement. -/
theorem defer_first {pre rest : List (DOp P)} {q b : ℕ} (hp : ∀ e ∈ pre, isMeasure e = false)
    (hr : rest ≠ []) :
    deferMeasurements (pre ++ meas (q, b) :: rest) =
      ((inner [q] [b] q b [] [] rest).bind fun l => match l with
        | [] => .ub
        | e :: l' => (outer rest.length [(q, b)] l').bind fun r => .ok (r.1, e :: r.2)).bind
          fun r => .ok (r.1, pre ++ r.2) := by
  have hl : (pre ++ meas (q, b) :: rest).length = pre.length + (rest.length + 1) := by
    simp only [List.length_append, List.length_cons]
  rw [deferMeasurements, hl, outer_prefix _ _ _ _ hp, meas, outer, if_neg (by simp), if_neg (by simpa using hr)]
  rfl

end Defer
end MQT.Opt
