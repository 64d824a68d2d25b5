/-
`CircuitOptimizer::removeDiagonalGatesBeforeMeasure`.

Sources (`src/circuit_optimizer/CircuitOptimizer.cpp`): 170-177 `constructDAG`, 279-383
`removeDiagonalGatesBeforeMeasureRecursive`, 385-440 `removeDiagonalGate`, 443-462
`removeDiagonalGatesBeforeMeasure`.

The per-qubit deques are lists of positions in the operation list, last operation first; a reverse
iterator is the rest of such a list, `rend()` is `[]`.  Outcomes: `ub` = a dereferenced or advanced
`rend()`; `throws` = `std::out_of_range`; `fuel` = the recursion was cut off (the code recurses
without bound; every theorem holds for every amount of fuel).

Simplification: the `while` loop and the recursive function are one function; both stop when the goal
is reached and both go on to the next qubit when the iterator is at `rend()`.
-/
import Verif.Opt.Elide
import Mathlib.Data.List.Sort

set_option autoImplicit false
set_option linter.unusedSectionVars false

namespace MQT.Opt

open MQT.IR
open Function (update)

variable {P : Type}

/-- Outcome of a computation. -/
inductive Res (α : Type)
  | ok (a : α)
  | ub
  | throws
  | fuel

def Res.bind {α β : Type} (r : Res α) (f : α → Res β) : Res β :=
  match r with
  | .ok a => f a
  | .ub => .ub
  | .throws => .throws
  | .fuel => .fuel

/-- `constructDAG` from operation `k` on. -/
def dagFrom (n : ℕ) : ℕ → List (Op P) → (ℕ → List ℕ) → Option (ℕ → List ℕ)
  | _, [], dag => some dag
  | k, e :: l, dag => (addToDag n dag k e.usedQ).bind (dagFrom n (k + 1) l)

/-- `constructDAG`. -/
def constructDAG (n : ℕ) (ops : List (Op P)) : Option (ℕ → List ℕ) := dagFrom n 0 ops fun _ => []

/-- The operations and the reverse iterators. -/
structure RD (P : Type) where
  ops : List (Op P)
  its : ℕ → List ℕ

/-- `setGate(I)`. -/
def setI : Op P → Op P
  | .std o => .std { o with type := .i }
  | e => e

/-- The order of `std::set<Control>`: by qubit, then by type. -/
def ctrlLE (a b : Ctrl) : Prop := a.1 < b.1 ∨ (a.1 = b.1 ∧ a.2 ≤ b.2)

instance : DecidableRel ctrlLE := fun _ _ => inferInstanceAs (Decidable (_ ∨ _))

instance : Std.Antisymm ctrlLE := ⟨by
  rintro ⟨a, p⟩ ⟨b, q⟩ h1 h2
  simp only [ctrlLE] at h1 h2
  have : a = b := by omega
  subst this
  have h3 := h1.resolve_left (lt_irrefl _)
  have h4 := h2.resolve_left (lt_irrefl _)
  rw [le_antisymm h3.2 h4.2]⟩

instance : IsTrans Ctrl ctrlLE := ⟨by
  rintro ⟨a, p⟩ ⟨b, q⟩ ⟨c, r⟩ h1 h2
  simp only [ctrlLE] at h1 h2 ⊢
  rcases h1 with h1 | ⟨h1, h1'⟩ <;> rcases h2 with h2 | ⟨h2, h2'⟩
  · left; omega
  · left; omega
  · left; omega
  · right; exact ⟨by omega, h1'.trans h2'⟩⟩

instance : Std.Total ctrlLE := ⟨by
  rintro ⟨a, p⟩ ⟨b, q⟩
  simp only [ctrlLE]
  rcases lt_trichotomy a b with h | h | h
  · exact Or.inl (Or.inl h)
  · rcases le_total p q with h' | h'
    · exact Or.inl (Or.inr ⟨h, h'⟩)
    · exact Or.inr (Or.inr ⟨h.symm, h'⟩)
  · exact Or.inr (Or.inl h)⟩

/-- The controls of an operation, in the order of `std::set<Control>`. -/
def sortedCtrls (cs : Finset Ctrl) : List Ctrl :=
  Quot.liftOn cs.val (List.insertionSort ctrlLE) fun l l' h =>
    ((List.perm_insertionSort ctrlLE l).trans (h.trans (List.perm_insertionSort ctrlLE l').symm)).eq_of_pairwise'
      (List.pairwise_insertionSort ctrlLE l) (List.pairwise_insertionSort ctrlLE l')

/-- `getControls()`. -/
def ctrlsOf : Op P → List Ctrl
  | .std o => sortedCtrls o.controls
  | .classic _ e => ctrlsOf e
  | _ => []

/-- `getTargets()`. -/
def tgtsOf : Op P → List ℕ
  | .std o => o.targets
  | .measure qs _ => qs
  | .reset qs => qs
  | .classic _ e => tgtsOf e
  | .compound _ _ => []

/-- `++dagIterators.at(q)` for every listed qubit. -/
def advance : List ℕ → RD P → Res (RD P)
  | [], S => .ok S
  | q :: l, S => match S.its q with
    | [] => .ub
    | _ :: t => advance l { S with its := update S.its q t }

/-- The loops over the controls and over the targets in `removeDiagonalGate` (393-428): `(q, neg)` lists
the qubits, `neg` for negative controls; `R` is the recursive call. -/
def checkLines (R : ℕ → Option ℕ → RD P → Res (RD P)) (idx : ℕ) :
    List (ℕ × Bool) → RD P → Res (Bool × RD P)
  | [], S => .ok (true, S)
  | (q, neg) :: l, S =>
    if q = idx then checkLines R idx l S
    else if neg then .ok (false, { S with its := update S.its q [] })
    else if S.its q = [] then .ok (false, S)
    else match S.its idx with
      | [] => .ub
      | j :: _ => (R q (some j) S).bind fun S' => match S'.its q, S'.its idx with
        | a :: _, b :: _ => if a ≠ b then .ok (false, S') else checkLines R idx l S'
        | _, _ => .ub

/-- `removeDiagonalGate` (385-440); `kill` sets the operation `e` to the identity. -/
def removeGate (R : ℕ → Option ℕ → RD P → Res (RD P)) (idx : ℕ) (e : Op P)
    (kill : List (Op P) → List (Op P)) (S : RD P) : Res (Bool × RD P) :=
  if e.type.isDiagonal = false then .ok (false, { S with its := update S.its idx [] })
  else if ctrlsOf e = [] then .ok (true, { S with ops := kill S.ops })
  else
    (checkLines R idx ((ctrlsOf e).map fun c => (c.1, !c.2)) S).bind fun r1 =>
    (checkLines R idx ((tgtsOf e).map fun q => (q, false)) r1.2).bind fun r2 =>
    if r1.1 && r2.1 then .ok (true, { r2.2 with ops := kill r2.2.ops })
    else .ok (false, { r2.2 with its := update r2.2.its idx [] })

/-- The loop over the parts of a compound operation at position `i`, last part first (338-346). -/
def removeParts (R : ℕ → Option ℕ → RD P → Res (RD P)) (idx i : ℕ) :
    List (ℕ × Op P) → RD P → Res (Bool × RD P)
  | [], S => .ok (true, S)
  | (j, e) :: l, S =>
    (removeGate R idx e (fun ops => ops.modify i fun c => match c with
      | .compound ps b => .compound (ps.modify j setI) b
      | c => c) S).bind fun r => if r.1 then removeParts R idx i l r.2 else .ok (false, r.2)

/-- `setGate(I)` on the operation, or on the operation it controls classically. -/
def killOp : Op P → Op P
  | .classic p e => .classic p (setI e)
  | c => setI c

/-- `killOp` at position `i`. -/
def killAt (i : ℕ) (ops : List (Op P)) : List (Op P) := ops.modify i killOp

/-- One round of the `while` loop for the operation `i` on qubit `idx` (310-373). -/
def removeStep (n : ℕ) (R : ℕ → Option ℕ → RD P → Res (RD P)) (idx i : ℕ) (S : RD P) : Res (RD P) :=
  match S.ops[i]? with
  | none => .ub
  | some (.std o) => (removeGate R idx (.std o) (killAt i) S).bind fun r =>
      if r.1 then advance ((ctrlsOf (.std o)).map Prod.fst ++ o.targets) r.2 else .ok r.2
  | some (.compound ps b) => (removeParts R idx i (ps.zipIdx.map Prod.swap).reverse S).bind fun r =>
      if r.1 then advance ((List.range n).filter fun q => q ∈ (Op.compound ps b).acts) r.2 else .ok r.2
  | some (.classic _ e) => (removeGate R idx e (killAt i) S).bind fun r =>
      if r.1 then advance ((ctrlsOf e).map Prod.fst ++ tgtsOf e) r.2 else .ok r.2
  | some (.measure _ _) => .ok { S with its := update S.its idx [] }
  | some (.reset _) => .ok { S with its := update S.its idx [] }

/-- `removeDiagonalGatesBeforeMeasureRecursive` (279-383). -/
def removeRec (n : ℕ) : ℕ → ℕ → Option ℕ → RD P → Res (RD P)
  | 0, _, _, _ => .fuel
  | f + 1, idx, goal, S => match S.its idx with
    | [] => if idx + 1 < n then removeRec n f (idx + 1) none S else .ok S
    | i :: _ =>
      if goal = some i then .ok S
      else (removeStep n (removeRec n f) idx i S).bind (removeRec n f idx goal)

/-- Is the operation at position `k` a measurement? -/
def isMeasureAt (ops : List (Op P)) (k : ℕ) : Bool :=
  match ops[k]? with
  | some e => e.type = .measure
  | none => false

/-- The initial iterators (447-457). -/
def initIts (ops : List (Op P)) (dag : ℕ → List ℕ) : ℕ → List ℕ := fun q =>
  match dag q with
  | [] => []
  | k :: t => if isMeasureAt ops k then t else []

/-- `removeDiagonalGatesBeforeMeasure` (443-462). -/
def removeDiagonal (fuel n : ℕ) (ops : List (Op P)) : Res (List (Op P)) :=
  match constructDAG n ops with
  | none => .throws
  | some dag => (removeRec n fuel 0 none { ops := ops, its := initIts ops dag }).bind fun S =>
    .ok (removeIdentities S.ops)

/-! ### Operations that act on other qubits -/

/-- `f` commutes with everything outside the qubits `U`. -/
structure Outside (U : Finset ℕ) (f : State → State) : Prop where
  std : ∀ (o : StdOp ℝ) g, o.denote = some g → Disjoint U o.used → ∀ ψ, g (f ψ) = f (g ψ)
  app : ∀ (M : Mat1) q, q ∉ U → ∀ ψ, f (app1 M q ψ) = app1 M q (f ψ)

theorem outside_denote {o : StdOp ℝ} {f : State → State} (hf : o.denote = some f) :
    Outside o.used f := by
  refine ⟨fun s g hg hd ψ => ?_, fun M q hq ψ => denote_comm_app1 hf M hq ψ⟩
  refine StdOp.comm_of_disjoint hg hf ?_ ?_ ψ
  · intro q hq hu
    exact (Finset.disjoint_left.1 hd) hu (StdOp.mem_used.2 (Or.inl hq))
  · intro q hq hu
    exact (Finset.disjoint_left.1 hd) (StdOp.mem_used.2 (Or.inl hq)) hu

theorem outside_app1 (M : Mat1) (q : ℕ) : Outside {q} (app1 M q) := by
  refine ⟨fun s g hg hd ψ => ?_, fun N r hr ψ => ?_⟩
  · exact denote_comm_app1 hg M (Finset.disjoint_singleton_left.1 hd) ψ
  · exact app1_app1_comm M N (by rintro rfl; exact hr (by simp)) ψ

mutual
theorem outside_exec {U : Finset ℕ} {f : State → State} (hf : Outside U f) (e : Op ℝ)
    (hd : Disjoint U e.acts) : Passes f (exec e) := by
  match e with
  | .std s =>
    intro c
    rw [exec, exec]
    cases hs : s.denote with
    | none => rfl
    | some g =>
      rw [Op.acts] at hd
      simp only [Option.map_some, Cfg.mapSt]
      rw [hf.std s g hs hd]
  | .compound ops b =>
    rw [Op.acts] at hd
    rw [run_compound]
    exact outside_run hf ops hd
  | .measure qs cs =>
    rw [Op.acts] at hd
    intro c
    rw [exec, exec, Option.map_some]
    congr 1
    have : ∀ p ∈ qs.zip cs, ∀ M ψ, f (app1 M p.1 ψ) = app1 M p.1 (f ψ) := by
      intro p hp M ψ
      refine hf.app M p.1 ?_ ψ
      exact (Finset.disjoint_right.1 hd) (List.mem_toFinset.2 (List.of_mem_zip hp).1)
    generalize qs.zip cs = l at this
    induction l generalizing c with
    | nil => rfl
    | cons p l ih =>
      rw [List.foldl_cons, List.foldl_cons, passes_measure1 (this p (by simp)), ih _ fun p' hp' =>
        this p' (List.mem_cons_of_mem _ hp')]
  | .reset qs =>
    rw [Op.acts] at hd
    intro c
    rw [exec, exec, Option.map_some]
    congr 1
    have : ∀ q ∈ qs, ∀ M ψ, f (app1 M q ψ) = app1 M q (f ψ) := by
      intro q hq M ψ
      refine hf.app M q ?_ ψ
      exact (Finset.disjoint_right.1 hd) (List.mem_toFinset.2 hq)
    clear hd
    induction qs generalizing c with
    | nil => rfl
    | cons p l ih =>
      rw [List.foldl_cons, List.foldl_cons, passes_reset1 (this p (by simp)), ih _ fun p' hp' =>
        this p' (List.mem_cons_of_mem _ hp')]
  | .classic p op =>
    rw [Op.acts] at hd
    intro c
    rw [exec, exec]
    have : (c.mapSt f).mem = c.mem := rfl
    rw [this]
    split_ifs
    · exact outside_exec hf op hd c
    · rfl
theorem outside_run {U : Finset ℕ} {f : State → State} (hf : Outside U f) (l : List (Op ℝ))
    (hd : Disjoint U (Op.actsL l)) : Passes f (run l) := by
  match l with
  | [] => intro c; rw [run, run]; rfl
  | e :: l =>
    rw [Op.actsL, Finset.disjoint_union_right] at hd
    intro c
    rw [run, run, outside_exec hf e hd.1]
    cases exec e c with
    | none => rfl
    | some d =>
      simp only [Option.map_some, Option.bind_some]
      exact outside_run hf l hd.2 d
end

/-! ### A diagonal gate whose qubits are only measured afterwards -/

theorem app1_projM (b : Bool) (q : ℕ) (ψ : State) (x : Bits) :
    app1 (projM b) q ψ x = if x q = b then ψ x else 0 := by
  have hu : ∀ b, x q = b → update x q b = x := fun b e => by rw [← e, Function.update_eq_self]
  simp only [app1, projM, Fintype.sum_bool]
  cases hx : x q <;> cases b <;> simp [hu _ hx]

/-- Multiplication by a phase that depends on the qubits `U` only. -/
structure PhaseOn (U : Finset ℕ) (f : State → State) (d : Bits → ℂ) : Prop where
  eq : ∀ ψ x, f ψ x = d x * ψ x
  dep : ∀ x y, (∀ q ∈ U, y q = x q) → d y = d x
  unit : ∀ x, ‖d x‖ = 1
  out : Outside U f

theorem diag_unitary_norm {M : Mat1} (hd : IsDiagM M) (hu : Unitary M) (b : Bool) : ‖M b b‖ = 1 := by
  have h := congrFun (congrFun hu.1 b) b
  rw [Matrix.mul_apply, Matrix.one_apply_eq, Fintype.sum_bool] at h
  simp only [Matrix.conjTranspose_apply] at h
  have key : ∀ z : ℂ, z * star z = 1 → ‖z‖ = 1 := by
    intro z hz
    have : ‖z‖ * ‖z‖ = 1 := by
      have := congrArg norm hz
      rwa [norm_mul, norm_star, norm_one] at this
    nlinarith [norm_nonneg z]
  have z1 : M false true = 0 := hd _ _ (by decide)
  have z2 : M true false = 0 := hd _ _ (by decide)
  cases b
  · have h' : M false true * star (M false true) + M false false * star (M false false) = 1 := h
    rw [z1, zero_mul, zero_add] at h'
    exact key _ h'
  · have h' : M true true * star (M true true) + M true false * star (M true false) = 1 := h
    rw [z2, zero_mul, add_zero] at h'
    exact key _ h'

theorem phaseOn_denote {o : StdOp ℝ} {f : State → State} (hf : o.denote = some f)
    (hd : o.type.isDiagonal = true) (ht : o.targets.length ≤ 1) : ∃ d, PhaseOn o.used f d := by
  rcases StdOp.denote_cases hf with ⟨hb, rfl⟩ | ⟨hg, -⟩ | ⟨hs, q, M, h1, h2, rfl⟩ |
    ⟨h2, q0, q1, M, h1, -⟩
  · exact ⟨fun _ => 1, fun ψ x => (one_mul _).symm, fun _ _ _ => rfl, fun _ => norm_one,
      outside_denote hf⟩
  · rw [hg] at hd; exact absurd hd (by decide)
  · obtain ⟨d, e1, e2⟩ := app1_diag (gate1_diag hd h2) q
    have dM := gate1_diag hd h2
    refine ⟨fun x => if Sat o.controls x then M (x q) (x q) else 1, ?_, ?_, ?_, outside_denote hf⟩
    · intro ψ x
      simp only [ctl]
      split_ifs
      · unfold app1
        rw [Finset.sum_eq_single (x q)]
        · rw [Function.update_eq_self]
        · intro b _ hb; rw [dM _ _ (Ne.symm hb), zero_mul]
        · intro h; exact absurd (Finset.mem_univ _) h
      · rw [one_mul]
    · intro x y hxy
      have hq : y q = x q := hxy q (StdOp.mem_used.2 (Or.inl (by rw [h1]; simp)))
      have : Sat o.controls y ↔ Sat o.controls x :=
        sat_agree fun r hr => hxy r (StdOp.mem_used.2 (Or.inr hr))
      simp only [this, hq]
    · intro x
      show ‖(if Sat o.controls x then M (x q) (x q) else 1 : ℂ)‖ = 1
      split_ifs
      · exact diag_unitary_norm dM (gate1_unitary _ _ _ h2) _
      · exact norm_one
  · rw [h1] at ht; simp at ht

/-- The same outcome up to a phase of the state. -/
def PhaseEq (c d : Cfg) : Prop :=
  c.mem = d.mem ∧ c.orc = d.orc ∧ ∃ z : ℂ, ‖z‖ = 1 ∧ ∀ x, c.st x = z * d.st x

theorem PhaseEq.refl (c : Cfg) : PhaseEq c c := ⟨rfl, rfl, 1, norm_one, fun _ => (one_mul _).symm⟩

theorem PhaseEq.trans {a b c : Cfg} (h : PhaseEq a b) (h' : PhaseEq b c) : PhaseEq a c := by
  obtain ⟨h1, h2, z, hz, h3⟩ := h
  obtain ⟨h4, h5, w, hw, h6⟩ := h'
  exact ⟨h1.trans h4, h2.trans h5, z * w, by rw [norm_mul, hz, hw, one_mul], fun x => by
    rw [h3, h6, mul_assoc]⟩

theorem PhaseEq.symm {a b : Cfg} (h : PhaseEq a b) : PhaseEq b a := by
  obtain ⟨h1, h2, z, hz, h3⟩ := h
  have hz0 : z ≠ 0 := by rintro rfl; simp at hz
  exact ⟨h1.symm, h2.symm, z⁻¹, by rw [norm_inv, hz, inv_one], fun x => by
    rw [h3, ← mul_assoc, inv_mul_cancel₀ hz0, one_mul]⟩

/-- An operation turned into the identity. -/
def dead : Op P → Bool
  | .std o => o.type = .i
  | .classic _ (.std o) => o.type = .i
  | _ => false

theorem exec_dead {e : Op ℝ} (hv : e.Valid) (h : dead e = true) (c : Cfg) : exec e c = some c := by
  match e with
  | .std o => exact exec_identity hv (by exact of_decide_eq_true h) c
  | .classic p (.std o) =>
    rw [exec]
    split_ifs
    · exact exec_identity (o := .std o) (by rw [Op.Valid] at hv; exact hv) (by exact of_decide_eq_true h) c
    · rfl
  | .classic p (.compound _ _) => simp [dead] at h
  | .classic p (.measure _ _) => simp [dead] at h
  | .classic p (.reset _) => simp [dead] at h
  | .classic p (.classic _ _) => simp [dead] at h
  | .compound _ _ => simp [dead] at h
  | .measure _ _ => simp [dead] at h
  | .reset _ => simp [dead] at h

/-- Qubit `q` has a definite value in `ψ`. -/
def Definite (q : ℕ) (ψ : State) : Prop := ∃ b, app1 (projM b) q ψ = ψ

theorem definite_measure1 {q r b : ℕ} {c : Cfg} (h : Definite q c.st) :
    Definite q (measure1 r b c).st := by
  obtain ⟨v, hv⟩ := h
  refine ⟨v, ?_⟩
  funext x
  have := congrFun hv x
  simp only [measure1]
  rw [app1_projM] at this ⊢
  rw [app1_projM]
  by_cases h1 : x q = v
  · rw [if_pos h1]
  · rw [if_neg h1] at this ⊢
    rw [← this]; simp

theorem definite_measured (q b : ℕ) (c : Cfg) : Definite q (measure1 q b c).st := by
  refine ⟨c.orc 0, ?_⟩
  funext x
  simp only [measure1, app1_projM]
  by_cases h1 : x q = c.orc 0 <;> simp [h1]

theorem definite_foldl {q : ℕ} (l : List (ℕ × ℕ)) {c : Cfg}
    (h : Definite q c.st ∨ ∃ p ∈ l, p.1 = q) :
    Definite q (l.foldl (fun c p => measure1 p.1 p.2 c) c).st := by
  induction l generalizing c with
  | nil =>
    rcases h with h | ⟨p, hp, -⟩
    · exact h
    · simp at hp
  | cons a l ih =>
    rw [List.foldl_cons]
    apply ih
    rcases h with h | ⟨p, hp, rfl⟩
    · exact Or.inl (definite_measure1 h)
    · rcases List.mem_cons.1 hp with rfl | hp
      · exact Or.inl (definite_measured _ _ _)
      · exact Or.inr ⟨p, hp, rfl⟩

theorem phase_measure {U : Finset ℕ} {f : State → State} {d : Bits → ℂ} (hf : PhaseOn U f d)
    (l : List (ℕ × ℕ)) (c : Cfg) :
    l.foldl (fun c p => measure1 p.1 p.2 c) (c.mapSt f) =
      (l.foldl (fun c p => measure1 p.1 p.2 c) c).mapSt f := by
  induction l generalizing c with
  | nil => rfl
  | cons a l ih =>
    rw [List.foldl_cons, List.foldl_cons, ← ih]
    congr 1
    simp only [measure1, Cfg.mapSt]
    congr 1
    funext x
    rw [app1_projM, hf.eq, hf.eq, app1_projM]
    split_ifs <;> simp

/-- A measurement operation with as many bits as qubits. -/
def measures (q : ℕ) : Op P → Prop
  | .measure qs cs => q ∈ qs ∧ qs.length = cs.length
  | _ => False

/-- After this list of operations qubit `q` has been measured last: every operation on it is dead,
except possibly one measurement (certainly one, if `q` has no definite value yet). -/
def Ends (q : ℕ) (ψ : State) (l : List (Op ℝ)) : Prop :=
  (Definite q ψ ∧ ∀ e ∈ l, q ∈ e.acts → dead e = true) ∨
  ∃ l1 m l2, l = l1 ++ m :: l2 ∧ measures q m ∧ ∀ e ∈ l1 ++ l2, q ∈ e.acts → dead e = true

theorem zip_mem {qs cs : List ℕ} {q : ℕ} (h : q ∈ qs) (hl : qs.length = cs.length) :
    ∃ p ∈ qs.zip cs, p.1 = q := by
  have := List.map_fst_zip (l₁ := qs) (l₂ := cs) (by omega)
  rw [← this, List.mem_map] at h
  exact h

theorem phase_tail {U : Finset ℕ} {f : State → State} {d : Bits → ℂ} (hf : PhaseOn U f d)
    (l : List (Op ℝ)) (hv : Op.ValidL l) (c : Cfg) (hl : ∀ q ∈ U, Ends q c.st l)
    {r : Cfg} (hr : run l c = some r) : ∃ r', run l (c.mapSt f) = some r' ∧ PhaseEq r' r := by
  induction l generalizing c with
  | nil =>
    rw [run_nil] at hr
    injection hr with hr
    subst hr
    refine ⟨c.mapSt f, by rw [run_nil], rfl, rfl, ?_⟩
    have hdef : ∀ q ∈ U, Definite q c.st := by
      intro q hq
      rcases hl q hq with h | ⟨l1, m, l2, h, -⟩
      · exact h.1
      · simp at h
    classical
    choose! v hv' using hdef
    refine ⟨d v, hf.unit v, fun x => ?_⟩
    show f c.st x = _
    rw [hf.eq]
    by_cases hx : ∀ q ∈ U, v q = x q
    · rw [hf.dep x v hx]
    · push Not at hx
      obtain ⟨q, hq, hne⟩ := hx
      have := congrFun (hv' q hq) x
      rw [app1_projM, if_neg (Ne.symm hne)] at this
      rw [← this]; simp
  | cons e l ih =>
    rw [Op.ValidL] at hv
    rw [run_cons] at hr ⊢
    by_cases hdead : dead e = true
    · rw [exec_dead hv.1 hdead, Option.bind_some] at hr ⊢
      refine ih hv.2 c (fun q hq => ?_) hr
      rcases hl q hq with ⟨h1, h2⟩ | ⟨l1, m, l2, h, h1, h2⟩
      · exact Or.inl ⟨h1, fun e' he' => h2 e' (List.mem_cons_of_mem _ he')⟩
      · cases l1 with
        | nil =>
          injection h with h3 h4
          subst h3
          cases e <;> simp [measures, dead] at h1 hdead
        | cons a l1 =>
          injection h with h3 h4
          subst h4
          exact Or.inr ⟨l1, m, l2, rfl, h1, fun e' he' => h2 e' (List.mem_cons_of_mem _ he')⟩
    · -- what an operation on one of the qubits must be
      have hmust : ∀ q ∈ U, q ∈ e.acts → measures q e ∧ ∀ e' ∈ l, q ∈ e'.acts → dead e' = true := by
        intro q hq ha
        rcases hl q hq with ⟨h1, h2⟩ | ⟨l1, m, l2, h, h1, h2⟩
        · exact absurd (h2 e (by simp) ha) hdead
        · cases l1 with
          | nil =>
            injection h with h3 h4
            subst h3 h4
            exact ⟨h1, fun e' he' => h2 e' he'⟩
          | cons a l1 =>
            injection h with h3 h4
            subst h3
            exact absurd (h2 e (by simp) ha) hdead
      by_cases hm : ∃ qs cs, e = .measure qs cs
      · obtain ⟨qs, cs, rfl⟩ := hm
        rw [exec, Option.bind_some] at hr ⊢
        rw [phase_measure hf]
        refine ih hv.2 _ (fun q hq => ?_) hr
        by_cases ha : q ∈ qs
        · obtain ⟨h1, h2⟩ := hmust q hq (by rw [Op.acts]; exact List.mem_toFinset.2 ha)
          exact Or.inl ⟨definite_foldl _ (Or.inr (zip_mem h1.1 h1.2)), h2⟩
        · rcases hl q hq with ⟨h1, h2⟩ | ⟨l1, m, l2, h, h1, h2⟩
          · exact Or.inl ⟨definite_foldl _ (Or.inl h1), fun e' he' => h2 e' (List.mem_cons_of_mem _ he')⟩
          · cases l1 with
            | nil =>
              injection h with h3 h4
              subst h3
              exact absurd h1.1 ha
            | cons a l1 =>
              injection h with h3 h4
              subst h4
              exact Or.inr ⟨l1, m, l2, rfl, h1, fun e' he' => h2 e' (List.mem_cons_of_mem _ he')⟩
      · have hno : ∀ q ∈ U, q ∉ e.acts := by
          intro q hq ha
          have := (hmust q hq ha).1
          cases e <;> first | exact hm ⟨_, _, rfl⟩ | exact this
        rw [outside_exec hf.out e (Finset.disjoint_left.2 fun q hq => hno q hq)]
        cases he : exec e c with
        | none => rw [he] at hr; cases hr
        | some c1 =>
          rw [he, Option.bind_some] at hr
          rw [Option.map_some, Option.bind_some]
          refine ih hv.2 c1 (fun q hq => ?_) hr
          rcases hl q hq with ⟨⟨b, h1⟩, h2⟩ | ⟨l1, m, l2, h, h1, h2⟩
          · refine Or.inl ⟨⟨b, ?_⟩, fun e' he' => h2 e' (List.mem_cons_of_mem _ he')⟩
            have := outside_exec (outside_app1 (projM b) q) e
              (Finset.disjoint_singleton_left.2 (hno q hq)) c
            have e0 : c.mapSt (app1 (projM b) q) = c := by
              simp only [Cfg.mapSt, h1]
            rw [e0, he, Option.map_some] at this
            injection this with this
            exact (congrArg Cfg.st this).symm
          · cases l1 with
            | nil =>
              injection h with h3 h4
              subst h3
              cases e <;> first | exact absurd ⟨_, _, rfl⟩ hm | exact absurd h1 (by simp [measures])
            | cons a l1 =>
              injection h with h3 h4
              subst h4
              exact Or.inr ⟨l1, m, l2, rfl, h1, fun e' he' => h2 e' (List.mem_cons_of_mem _ he')⟩

end MQT.Opt
